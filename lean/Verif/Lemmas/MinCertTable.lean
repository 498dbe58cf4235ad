import Verif.Lemmas.MinCertNodes

/-!
# The tables of coefficients: documented spectral radii and data of the bounds

Written by `tools/gen_mincert.py`.
-/

namespace QMat.MinCert

/-- The values in the comments `# rho = ...` of `mincoeffs.py` 10-128: node type, quadrature type, number of nodes,
spectral radius. -/
def documented : List (String × String × ℕ × ℚ) :=
  [("LEGENDRE", "LOBATTO", 9, 30957338791 / 200000000000),
   ("LEGENDRE", "LOBATTO", 7, 979351256833 / 10000000000000),
   ("LEGENDRE", "LOBATTO", 5, 102708631047 / 2000000000000),
   ("LEGENDRE", "LOBATTO", 4, 381589713397 / 10000000000000),
   ("LEGENDRE", "LOBATTO", 3, 849538729 / 62500000000),
   ("LEGENDRE", "LOBATTO", 2, 0),
   ("LEGENDRE", "RADAU-RIGHT", 9, 30356972277 / 200000000000),
   ("LEGENDRE", "RADAU-RIGHT", 7, 3637505059 / 31250000000),
   ("LEGENDRE", "RADAU-RIGHT", 5, 391676498479 / 5000000000000),
   ("LEGENDRE", "RADAU-RIGHT", 4, 57498908343 / 1000000000000),
   ("LEGENDRE", "RADAU-RIGHT", 3, 38744192979 / 1000000000000),
   ("LEGENDRE", "RADAU-RIGHT", 2, 104280351147 / 5000000000000),
   ("EQUID", "RADAU-RIGHT", 9, 251820022583 / 1000000000000),
   ("EQUID", "RADAU-RIGHT", 7, 184582997611 / 1000000000000),
   ("EQUID", "RADAU-RIGHT", 5, 118441339197 / 1000000000000),
   ("EQUID", "RADAU-RIGHT", 4, 422021627271 / 5000000000000),
   ("EQUID", "RADAU-RIGHT", 3, 252317571933 / 5000000000000),
   ("EQUID", "RADAU-RIGHT", 2, 214806480623 / 10000000000000)]

def min3ll9 : Entry :=
  ⟨"LEGENDRE", "LOBATTO", 1547 / 10000,
    [0,
      129424952063972170110703930327384920005306623373211972475346791343503092124783754731060345355250833008580635688205183925,
      416792845189089410821835078022459936739852423216265446445928877085988024581633948814448320969048910744239454602719428664,
      822294925695266299729123807021479544294634306753016360633716782174746110170680582544641871022077899574596529764961855871,
      1291124939043454294827959586001505937164852896414611756415329678270323811008420597314822676640068915717951585986373746688,
      1759954952391642289926795364981532330035071486076207152196942574365901511846160612085003482258059931861306642207785637505,
      2165457032897819178834084093980551937589853369612958066384730479454659597435207245815197032311088920691663717370028064712,
      2452824926022936419545215241675626954324399169456011540355312565197144529892057439898585007924886998427322536284542309451,
      2582249878086908589655919172003011874329705792829223512830659356540647622016841194629645353280137831435903171972747493376],
    31, 2 ^ 22, 2 ^ 41, 10⟩

theorem min3ll9_ok : entryOk MinCoeffs.MIN3 min3ll9 = true := by decide +kernel

def min3ll7 : Entry :=
  ⟨"LEGENDRE", "LOBATTO", 11 / 200,
    [0,
      219202161568370446527408529216031409676834242200293598197167714063019983847648649418642476306208185968290442293019761443,
      685782569152981313542922108226208744472329700169695866834050647882800830209290608776641370513867784044564136393506898504,
      1291124939043454294827959586001505937164852896414611756415329678270323811008420597314822676640068915717951585986373746688,
      1896467308933927276112997063776803129857376092659527645996608708657846791807550585853003982766270047391339035579240594872,
      2363047716518538143128510642786980464652871550628929914633491642477627638169192545211002876973929645467612729679727731933,
      2582249878086908589655919172003011874329705792829223512830659356540647622016841194629645353280137831435903171972747493376],
    23, 2 ^ 18, 2 ^ 33, 8⟩

theorem min3ll7_ok : entryOk MinCoeffs.MIN3 min3ll7 = true := by decide +kernel

def min3ll5 : Entry :=
  ⟨"LEGENDRE", "LOBATTO", 3 / 500,
    [0,
      445885258356043704610844600999986546627662478872511707617333197102401660280010997498107074785263269970259141179380624563,
      1291124939043454294827959586001505937164852896414611756415329678270323811008420597314822676640068915717951585986373746688,
      2136364619730864885045074571003025327702043313956711805213326159438245961736830197131538278494874561465644030793366868813,
      2582249878086908589655919172003011874329705792829223512830659356540647622016841194629645353280137831435903171972747493376],
    13, 2 ^ 18, 2 ^ 28, 8⟩

theorem min3ll5_ok : entryOk MinCoeffs.MIN3 min3ll5 = true := by decide +kernel

def min3ll4 : Entry :=
  ⟨"LEGENDRE", "LOBATTO", 7 / 10000,
    [0,
      713716312814167074540207978919713780410855895807120903303320511026952350583726868825132530253526347425775156815374332645,
      1868533565272741515115711193083298093918849897022102609527338845513695271433114325804512823026611484010128015157373160731,
      2582249878086908589655919172003011874329705792829223512830659356540647622016841194629645353280137831435903171972747493376],
    9, 2 ^ 18, 2 ^ 27, 7⟩

theorem min3ll4_ok : entryOk MinCoeffs.MIN3 min3ll4 = true := by decide +kernel

def min3ll3 : Entry :=
  ⟨"LEGENDRE", "LOBATTO", 1 / 25000,
    [0,
      1291124939043454294827959586001505937164852896414611756415329678270323811008420597314822676640068915717951585986373746688,
      2582249878086908589655919172003011874329705792829223512830659356540647622016841194629645353280137831435903171972747493376],
    5, 2 ^ 4, 2 ^ 26, 7⟩

theorem min3ll3_ok : entryOk MinCoeffs.MIN3 min3ll3 = true := by decide +kernel

def min3lr9 : Entry :=
  ⟨"LEGENDRE", "RADAU-RIGHT", 11 / 100,
    [45912183721674852815967022832522020423727394597273242668130570243976020592670933344551692169496236282388495966859953836,
      235820375365699585080659999041500338631579267903552872806934061666308663427801447763531052491052310917161909220590326214,
      553398044792358287197387300924994072484401713090657784327180715702366159701155277103520055053333267693565620788383506516,
      960421786651754923664457149133880882533920190710447659052154848096626354374610267059582903830520997103352898574280758260,
      1407808250368254324320985735175195976471101752496782279886569289472862256313446415284158632226561456178096761056741800911,
      1841596683918395718599373458324130691146396451146918283020718641556095123250918838961095669283576725360797731399014340839,
      2209460128439964879036536588405726155303775918511730404839483758861752022657746536472174359437661117260181970190517814997,
      2466993852480847413871622570173388684011048531605596580526016280200098564921523016734756377268316784021972436701013826431,
      2582249878086908589655919172003011874329705792829223512830659356540647622016841194629645353280137831435903171972747493376],
    36, 2 ^ 24, 2 ^ 44, 9⟩

theorem min3lr9_ok : entryOk MinCoeffs.MIN3 min3lr9 = true := by decide +kernel

def min3lr7 : Entry :=
  ⟨"LEGENDRE", "RADAU-RIGHT", 3 / 50,
    [75702340459298273139277396102427338844846589084051680526536748098494937766314244696921239490698877093596728128548148280,
      382375945941223705329930551719829689543546142038503968345754653647127289623917434593812036120690882696267425278112242769,
      870178675395665338710512399767835449359723480113096927926185665286199775636910694957127740325399280856298676416178958489,
      1442629461238463392215427638283579126171117386501982819953056702610435836214287221328352246949129667359759595709750469347,
      1986354046447430097390580894926073496081808941615320513002409010643826565458879405354196669381359334828558475460599958384,
      2393605346758589133799893441670133936604296579251047664238652360903401317807866614967069507585411336526481729085187896695,
      2582249878086908589655919172003011874329705792829223512830659356540647622016841194629645353280137831435903171972747493376],
    26, 2 ^ 20, 2 ^ 35, 8⟩

theorem min3lr7_ok : entryOk MinCoeffs.MIN3 min3lr7 = true := by decide +kernel

def min3lr5 : Entry :=
  ⟨"LEGENDRE", "RADAU-RIGHT", 1 / 125,
    [147457303454964204019777723120366205628916726926360635721388292396302537855364580662236713791326203127991794566983058376,
      714877838216257626047075539309382449152782797103415318365229494499399816356142767476538071770354581806391040690680871086,
      1506976322837321730997426149465496603136571721536310364562920602638664968046807475493882119722396422766591225193315745139,
      2221354985423738376101799116110109185334539052796977704160522688760117339104958411264490389436167825962853800833904758068,
      2582249878086908589655919172003011874329705792829223512830659356540647622016841194629645353280137831435903171972747493376],
    16, 2 ^ 18, 2 ^ 29, 7⟩

theorem min3lr5_ok : entryOk MinCoeffs.MIN3 min3lr5 = true := by decide +kernel

def min3lr4 : Entry :=
  ⟨"LEGENDRE", "RADAU-RIGHT", 9 / 1000,
    [228756247651647762234012216187934977231908638891358389949469812032832711073014432100491430796419877488127547833346457217,
      1057345760782715933060696783414963169034700680171235749368438221533680514498670139270240321430588244241992463028507481431,
      2033933549105947348548615650115259977871583843146407520035796853414319431307111250295955130561740518687469781674535695693,
      2582249878086908589655919172003011874329705792829223512830659356540647622016841194629645353280137831435903171972747493376],
    12, 2 ^ 16, 2 ^ 25, 8⟩

theorem min3lr4_ok : entryOk MinCoeffs.MIN3 min3lr4 = true := by decide +kernel

def min3lr3 : Entry :=
  ⟨"LEGENDRE", "RADAU-RIGHT", 1 / 2500,
    [400380492267063963517954164080517445299338193602121104028711977442694500346811506898502178794497586345737597131609963736,
      1665419410202462908206781173521892054164426440661257706235815507789823597266661448805214103829612678802984940446588030964,
      2582249878086908589655919172003011874329705792829223512830659356540647622016841194629645353280137831435903171972747493376],
    8, 2 ^ 16, 2 ^ 24, 6⟩

theorem min3lr3_ok : entryOk MinCoeffs.MIN3 min3lr3 = true := by decide +kernel

def min3lr2 : Entry :=
  ⟨"LEGENDRE", "RADAU-RIGHT", 1 / 20000,
    [860749959362302863218639724001003958109901930943074504276886452180215874005613731543215117760045943811967723990915831125,
      2582249878086908589655919172003011874329705792829223512830659356540647622016841194629645353280137831435903171972747493376],
    4, 2 ^ 16, 2 ^ 23, 6⟩

theorem min3lr2_ok : entryOk MinCoeffs.MIN3 min3lr2 = true := by decide +kernel

def min3er9 : Entry :=
  ⟨"EQUID", "RADAU-RIGHT", 1 / 4,
    [286916653120767621072879908000334652703300643647691501425628817393405291335204577181071705920015314603989241330305277042,
      573833306241535242145759816000669305406601287295383002851257634786810582670409154362143411840030629207978482660610554084,
      860749959362302863218639724001003958109901930943074504276886452180215874005613731543215117760045943811967723990915831125,
      1147666612483070484291519632001338610813202574590766005702515269573621165340818308724286823680061258415956965321221108167,
      1434583265603838105364399540001673263516503218238457507128144086967026456676022885905358529600076573019946206651526385209,
      1721499918724605726437279448002007916219803861886149008553772904360431748011227463086430235520091887623935447981831662251,
      2008416571845373347510159356002342568923104505533840509979401721753837039346432040267501941440107202227924689312136939292,
      2295333224966140968583039264002677221626405149181532011405030539147242330681636617448573647360122516831913930642442216334,
      2582249878086908589655919172003011874329705792829223512830659356540647622016841194629645353280137831435903171972747493376],
    25, 2 ^ 30, 2 ^ 53, 8⟩

theorem min3er9_ok : entryOk MinCoeffs.MIN3 min3er9 = true := by decide +kernel

def min3er7 : Entry :=
  ⟨"EQUID", "RADAU-RIGHT", 3 / 25,
    [368892839726701227093702738857573124904243684689889073261522765220092517430977313518520764754305404490843310281821070482,
      737785679453402454187405477715146249808487369379778146523045530440185034861954627037041529508610808981686620563642140965,
      1106678519180103681281108216572719374712731054069667219784568295660277552292931940555562294262916213472529930845463211447,
      1475571358906804908374810955430292499616974738759556293046091060880370069723909254074083059017221617963373241127284281929,
      1844464198633506135468513694287865624521218423449445366307613826100462587154886567592603823771527022454216551409105352411,
      2213357038360207362562216433145438749425462108139334439569136591320555104585863881111124588525832426945059861690926422894,
      2582249878086908589655919172003011874329705792829223512830659356540647622016841194629645353280137831435903171972747493376],
    18, 2 ^ 25, 2 ^ 42, 8⟩

theorem min3er7_ok : entryOk MinCoeffs.MIN3 min3er7 = true := by decide +kernel

def min3er5 : Entry :=
  ⟨"EQUID", "RADAU-RIGHT", 3 / 100,
    [516449975617381717931183834400602374865941158565844702566131871308129524403368238925929070656027566287180634394549498675,
      1032899951234763435862367668801204749731882317131689405132263742616259048806736477851858141312055132574361268789098997350,
      1549349926852145153793551503201807124597823475697534107698395613924388573210104716777787211968082698861541903183648496026,
      2065799902469526871724735337602409499463764634263378810264527485232518097613472955703716282624110265148722537578197994701,
      2582249878086908589655919172003011874329705792829223512830659356540647622016841194629645353280137831435903171972747493376],
    11, 2 ^ 20, 2 ^ 32, 6⟩

theorem min3er5_ok : entryOk MinCoeffs.MIN3 min3er5 = true := by decide +kernel

def min3er4 : Entry :=
  ⟨"EQUID", "RADAU-RIGHT", 7 / 1000,
    [645562469521727147413979793000752968582426448207305878207664839135161905504210298657411338320034457858975792993186873344,
      1291124939043454294827959586001505937164852896414611756415329678270323811008420597314822676640068915717951585986373746688,
      1936687408565181442241939379002258905747279344621917634622994517405485716512630895972234014960103373576927378979560620032,
      2582249878086908589655919172003011874329705792829223512830659356540647622016841194629645353280137831435903171972747493376],
    8, 2 ^ 9, 2 ^ 25, 7⟩

theorem min3er4_ok : entryOk MinCoeffs.MIN3 min3er4 = true := by decide +kernel

def min3er3 : Entry :=
  ⟨"EQUID", "RADAU-RIGHT", 1 / 2500,
    [860749959362302863218639724001003958109901930943074504276886452180215874005613731543215117760045943811967723990915831125,
      1721499918724605726437279448002007916219803861886149008553772904360431748011227463086430235520091887623935447981831662251,
      2582249878086908589655919172003011874329705792829223512830659356540647622016841194629645353280137831435903171972747493376],
    5, 2 ^ 17, 2 ^ 25, 6⟩

theorem min3er3_ok : entryOk MinCoeffs.MIN3 min3er3 = true := by decide +kernel

def min3er2 : Entry :=
  ⟨"EQUID", "RADAU-RIGHT", 1 / 25000,
    [1291124939043454294827959586001505937164852896414611756415329678270323811008420597314822676640068915717951585986373746688,
      2582249878086908589655919172003011874329705792829223512830659356540647622016841194629645353280137831435903171972747493376],
    3, 2 ^ 4, 2 ^ 24, 6⟩

theorem min3er2_ok : entryOk MinCoeffs.MIN3 min3er2 = true := by decide +kernel

def vdhslr3 : Entry :=
  ⟨"LEGENDRE", "RADAU-RIGHT", 3 / 500,
    [400380492267063963517954164080517445299338193602121104028711977442694500346811506898502178794497586345737597131609963736,
      1665419410202462908206781173521892054164426440661257706235815507789823597266661448805214103829612678802984940446588030964,
      2582249878086908589655919172003011874329705792829223512830659356540647622016841194629645353280137831435903171972747493376],
    8, 2 ^ 13, 2 ^ 21, 6⟩

theorem vdhslr3_ok : entryOk MinCoeffs.MIN_VDHS vdhslr3 = true := by decide +kernel

def vdhslr4 : Entry :=
  ⟨"LEGENDRE", "RADAU-RIGHT", 3 / 100,
    [228756247651647762234012216187934977231908638891358389949469812032832711073014432100491430796419877488127547833346457217,
      1057345760782715933060696783414963169034700680171235749368438221533680514498670139270240321430588244241992463028507481431,
      2033933549105947348548615650115259977871583843146407520035796853414319431307111250295955130561740518687469781674535695693,
      2582249878086908589655919172003011874329705792829223512830659356540647622016841194629645353280137831435903171972747493376],
    12, 2 ^ 14, 2 ^ 23, 7⟩

theorem vdhslr4_ok : entryOk MinCoeffs.MIN_VDHS vdhslr4 = true := by decide +kernel

def min3Entries : List Entry :=
  [min3ll9, min3ll7, min3ll5, min3ll4, min3ll3, min3lr9, min3lr7, min3lr5, min3lr4, min3lr3, min3lr2, min3er9, min3er7, min3er5, min3er4, min3er3, min3er2]

theorem min3Entries_ok : ∀ e ∈ min3Entries, entryOk MinCoeffs.MIN3 e = true := by
  simp only [min3Entries, List.forall_mem_cons, List.not_mem_nil, false_imp_iff, implies_true, and_true]
  exact ⟨min3ll9_ok, min3ll7_ok, min3ll5_ok, min3ll4_ok, min3ll3_ok, min3lr9_ok, min3lr7_ok, min3lr5_ok, min3lr4_ok, min3lr3_ok, min3lr2_ok, min3er9_ok, min3er7_ok, min3er5_ok, min3er4_ok, min3er3_ok, min3er2_ok⟩

def vdhsEntries : List Entry :=
  [vdhslr3, vdhslr4]

theorem vdhsEntries_ok : ∀ e ∈ vdhsEntries, entryOk MinCoeffs.MIN_VDHS e = true := by
  simp only [vdhsEntries, List.forall_mem_cons, List.not_mem_nil, false_imp_iff, implies_true, and_true]
  exact ⟨vdhslr3_ok, vdhslr4_ok⟩

end QMat.MinCert

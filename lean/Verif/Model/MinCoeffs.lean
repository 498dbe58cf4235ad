import Mathlib.Data.Rat.Defs

/-!
# Model of `qmat/qdelta/mincoeffs.py`

Generated by `tools/gen_mincoeffs.py`; float literals are read as decimals.
-/

namespace QMat.MinCoeffs

/-- `table[nodeType][quadType][nNodes]`: nested dictionaries, as lists of key/value pairs.
`mincoeffs.py` 7-144. -/
abbrev Table := List (String × List (String × List (ℕ × List ℚ)))

/-- `mincoeffs.py` 7-134. -/
def MIN3 : Table := [
 ("LEGENDRE", [
  ("LOBATTO", [
    (9, [0, 14748983547536937/100000000000000000, 621876883697937/5000000000000000, 8797965969063823/100000000000000000, 812448219358341/25000000000000000, 771454180281397/12500000000000000, 1124411999838229/12500000000000000, 135080233591103/1250000000000000, 11621787232558443/100000000000000000]),
    (7, [0, 18827968699454273/100000000000000000, 81700871563311/625000000000000, 4545003319140543/100000000000000000, 8690617895312261/100000000000000000, 1540803639990271/12500000000000000, 13815746843252427/100000000000000000]),
    (5, [0, 2994085231050721/10000000000000000, 1980788643794313/25000000000000000, 14338847088077/100000000000000, 17675509273708057/100000000000000000]),
    (4, [0, 1432762094390023/5000000000000000, 704062031063499/6250000000000000, 516612633664131/2000000000000000]),
    (3, [0, 2113181799416633/10000000000000000, 492906365055739/1250000000000000]),
    (2, [0, 1/2])]),
  ("RADAU-RIGHT", [
    (9, [1776009510401427/12500000000000000, 644076981811993/5000000000000000, 10608601069476883/100000000000000000, 938690034031503/12500000000000000, 6996541932076327/250000000000000000, 5351160749903067/100000000000000000, 1977828997436967/25000000000000000, 4757422329418333/50000000000000000, 10204992319487571/100000000000000000]),
    (7, [15223871397682717/100000000000000000, 1578181000129817/12500000000000000, 4105357382462149/50000000000000000, 3994434742760019/100000000000000000, 526331273693071/5000000000000000, 14075805578834127/100000000000000000, 3127217151762579/20000000000000000]),
    (5, [2818591930905709/10000000000000000, 2011358490453793/10000000000000000, 1568634172378541/25000000000000000, 2358053053502819/20000000000000000, 1571629578515223/10000000000000000]),
    (4, [3198786751412953/10000000000000000, 8887606314792469/100000000000000000, 906183164162369/5000000000000000, 11636962508977/50000000000000]),
    (3, [640771365015411/2000000000000000, 279936137253919/2000000000000000, 929177115274343/2500000000000000]),
    (2, [2584092406077449/10000000000000000, 3224630870230913/5000000000000000])])]),
 ("EQUID", [
  ("RADAU-RIGHT", [
    (9, [2033666881554637/50000000000000000, 3446704088462159/50000000000000000, 944460427779633/10000000000000000, 5923764360061947/50000000000000000, 2830647270321539/20000000000000000, 327771354852169/2000000000000000, 580304983443739/3125000000000000, 20707543960267513/100000000000000000, 1140473282858099/5000000000000000]),
    (7, [116538158419303/2000000000000000, 1242202557383461/12500000000000000, 13668728443669567/100000000000000000, 214932290458027/1250000000000000, 2573201907352279/12500000000000000, 74621577663833/312500000000000, 27096908017041393/100000000000000000]),
    (5, [937126798932547/10000000000000000, 1619131388001843/10000000000000000, 22442341539247537/100000000000000000, 5677028598582513/20000000000000000, 1706261506733631/5000000000000000]),
    (4, [1649356525585859/12500000000000000, 574179723113479/2500000000000000, 1598627985008659/5000000000000000, 405619746972393/1000000000000000]),
    (3, [81878229797263/400000000000000, 3595744268324041/10000000000000000, 5032243650307717/10000000000000000]),
    (2, [937472758158163/2500000000000000, 1666618236699009/2500000000000000])])])]

/-- `mincoeffs.py` 137-144. -/
def MIN_VDHS : Table := [
 ("LEGENDRE", [
  ("RADAU-RIGHT", [
    (3, [4365/13624, 1032/7373, 1887/5077]),
    (4, [3055/9532, 531/5956, 1471/8094, 1848/7919])])])]

end QMat.MinCoeffs

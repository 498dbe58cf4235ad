#!/usr/bin/env python3
"""Writes Verif/Lemmas/MinCertTable.lean: the spectral radii in the comments of /repo/qmat/qdelta/mincoeffs.py, and
for every entry the data of a bound of the spectral radius in the stiff limit (nodes with 400 binary digits,
tolerances and a number of squarings), searched here and checked in Lean."""
import math, os, re, sys
from fractions import Fraction as F
PP=400
import importlib.util
sp=importlib.util.spec_from_file_location('mc','/repo/qmat/qdelta/mincoeffs.py'); mc=importlib.util.module_from_spec(sp); sp.loader.exec_module(mc)
def leg(n):
    a,b=[F(1)],[F(0),F(1)]
    if n==0:return a
    for k in range(1,n):
        c=[F(0)]+[F(2*k+1,k+1)*x for x in b]
        for i,x in enumerate(a): c[i]-=F(k,k+1)*x
        a,b=b,c
    return b
def ev(p,x):
    r=0
    for c in reversed(p): r=r*x+c
    return r
def add(p,q,s):
    n=max(len(p),len(q)); p=p+[0]*(n-len(p)); q=q+[0]*(n-len(q)); return [x+s*y for x,y in zip(p,q)]
def div(p,r): # divide by (x-r)
    q=[0]*(len(p)-1); c=0
    for i in range(len(p)-1,0,-1):
        c=p[i]+r*c; q[i-1]=c
    return q
def roots(p,eps=F(1,2**(PP+8))):
    N=4000; g=[F(-1)+F(2*i,N)+F(1,7919*N) for i in range(N+1)]; v=[ev(p,F(x)) for x in g]
    R=[]
    for i in range(N):
        if (v[i]<0)!=(v[i+1]<0):
            a,b=g[i],g[i+1]; sa=v[i]<0
            while b-a>eps:
                m=(a+b)/2; m=F(round(m*2**(PP+30)),2**(PP+30))
                if (ev(p,m)<0)==sa:a=m
                else:b=m
            R.append((a+b)/2)
    return R
def nodes(nt,qt,M):
    if nt=='LEGENDRE':
        if qt=='RADAU-RIGHT':
            p=div(add(leg(M),leg(M-1),-1),F(1)); r=roots(p)+[F(1)]
        else:
            p=leg(M-1); p=[i*c for i,c in enumerate(p)][1:]; r=[F(-1)]+(roots(p) if M>2 else [])+[F(1)]
        assert len(r)==M,(len(r),M)
    else:
        r=[F(-1)+F(2*(i+1),M) for i in range(M)]   # check nodes.py
    return [(x+1)/2 for x in r]

p = PP; s = 2 ** p; w = 2
TB=[('MIN3','LEGENDRE','LOBATTO',9,'0.1547',11),('MIN3','LEGENDRE','LOBATTO',7,'0.055',7),('MIN3','LEGENDRE','LOBATTO',5,'0.006',6),('MIN3','LEGENDRE','LOBATTO',4,'0.0007',7),('MIN3','LEGENDRE','LOBATTO',3,'0.00004',7),
 ('MIN3','LEGENDRE','RADAU-RIGHT',9,'0.11',7),('MIN3','LEGENDRE','RADAU-RIGHT',7,'0.06',7),('MIN3','LEGENDRE','RADAU-RIGHT',5,'0.008',6),('MIN3','LEGENDRE','RADAU-RIGHT',4,'0.009',7),('MIN3','LEGENDRE','RADAU-RIGHT',3,'0.0004',6),('MIN3','LEGENDRE','RADAU-RIGHT',2,'0.00005',6),
 ('MIN3','EQUID','RADAU-RIGHT',9,'0.25',8),('MIN3','EQUID','RADAU-RIGHT',7,'0.12',8),('MIN3','EQUID','RADAU-RIGHT',5,'0.03',6),('MIN3','EQUID','RADAU-RIGHT',4,'0.007',7),('MIN3','EQUID','RADAU-RIGHT',3,'0.0004',6),('MIN3','EQUID','RADAU-RIGHT',2,'0.00004',6),
 ('VDHS','LEGENDRE','RADAU-RIGHT',3,'0.006',6),('VDHS','LEGENDRE','RADAU-RIGHT',4,'0.03',6)]
# integer mirror of the Lean functions
def pows(k,n,v):
    r=[]
    for _ in range(n): r.append(v); v=v*k//s
    return r
def zrow(d,r,l): return [F(0) if d==0 else (l[j]-F(l[j+1])/((j+1)*d))/r for j in range(len(l)-1)]
def polyMul(k,l,c):
    o=[]
    for a in l: o.append(c-a*k//s); c=a
    return o+[c]
def others(ks,k0):
    r=[s]
    for k in reversed(ks):
        if k!=k0: r=polyMul(k,r,0)
    return r
def pd(ks,k0):
    r=s
    for k in reversed(ks):
        if k!=k0: r=r*(k0-k)//s
    return r
def mulm(A,B):
    C=list(zip(*B)); return [[sum(a*b for a,b in zip(r,c)) for c in C] for r in A]
nrm=lambda A:max(sum(abs(v) for v in r) for r in A)
def run(ks,ds,r,K):
    M=len(ks)
    Yc=[[a*s//pd(ks,k) for a in others(ks,k)] for k in ks]
    Y=[list(c) for c in zip(*Yc)]
    P=[pows(k,M+1,s) for k in ks]; V=[q[:M] for q in P]
    Z=[zrow(ds[i],r,P[i]) for i in range(M)]
    X=[[v//s for v in row] for row in mulm([[math.floor(z) for z in q] for q in Z],Y)]
    XV=mulm(X,V); YV=mulm(Y,V)
    nY=nrm(Y);nX=nrm(X)
    eta=max(sum(abs((s*s if i==j else 0)-YV[i][j]) for j in range(M)) for i in range(M))
    assert 2*(eta+nY*M*M*(w+1))<=s*s
    g=max(-(-1//d) for d in ds if d)
    R=max(sum(abs(Z[i][j]-F(XV[i][j],s)) for j in range(M)) for i in range(M)); R=-(-R//1)
    R=1<<(R.bit_length()+2)
    e=F(2*nY,s)*(F(M*(w+1)*(M+g))/r+R+F(nX,s)*M*M*(w+1)); e=-(-e//1)
    e=1<<(e.bit_length())
    B=X;ee=e;kk=None
    for k in range(K+1):
        if nrm(B)+ee<=s: kk=k;break
        ee=ee*(2*nrm(B)+ee)//s+1+M; B=[[v//s for v in row] for row in mulm(B,B)]
    return g,R,e,kk

def entry(nt, qt, r, ks, g, Rb, eb, kk):
    f = F(r)
    return (f'⟨"{nt}", "{qt}", {f.numerator} / {f.denominator},\n    [' + ',\n      '.join(map(str, ks)) +
            f'],\n    {g}, 2 ^ {Rb}, 2 ^ {eb}, {kk}⟩')
out = {'MIN3': [], 'VDHS': []}
for nm, nt, qt, M, r, _ in TB:
    T = mc.MIN3 if nm == 'MIN3' else mc.MIN_VDHS
    d = [F(repr(v)) for v in T[nt][qt][M]]
    ks = [round(v * s) for v in nodes(nt, qt, M)]
    g, R, e, kk = run(ks, d, F(r), 14)
    out[nm].append((nt, qt, M, entry(nt, qt, r, ks, g, R.bit_length() - 1, e.bit_length() - 1, kk)))
doc = []
nt = qt = None
for n, l in enumerate(open('/repo/qmat/qdelta/mincoeffs.py').read().split('\n'), 1):
    if m := re.match(r' {4}"([A-Z-]+)": \{', l): nt = m[1]
    if m := re.match(r' {8}"([A-Z-]+)": \{', l): qt = m[1]
    if m := re.match(r' {12}(\d+): .*# rho = ([0-9.]+)', l): doc.append((nt, qt, int(m[1]), F(m[2]), n))
o = """import Verif.Lemmas.MinCertNodes

/-!
# The tables of coefficients: documented spectral radii and data of the bounds

Written by `tools/gen_mincert.py`.
-/

namespace QMat.MinCert

/-- The values in the comments `# rho = ...` of `mincoeffs.py` 10-128: node type, quadrature type, number of nodes,
spectral radius. -/
def documented : List (String × String × ℕ × ℚ) :=
  [""" + ',\n   '.join(f'("{a}", "{b}", {c}, {str(r).replace("/", " / ")})' for a, b, c, r, _ in doc) + ']\n'
names = {'MIN3': [], 'VDHS': []}
for nm in out:
    for nt, qt, M, x in out[nm]:
        name = (nm + nt[0] + qt[0]).lower() + str(M)
        names[nm].append(name)
        t = 'MIN3' if nm == 'MIN3' else 'MIN_VDHS'
        o += f"""
def {name} : Entry :=
  {x}

theorem {name}_ok : entryOk MinCoeffs.{t} {name} = true := by decide +kernel
"""
for nm, v in (('min3', names['MIN3']), ('vdhs', names['VDHS'])):
    t = 'MIN3' if nm == 'min3' else 'MIN_VDHS'
    o += f"""
def {nm}Entries : List Entry :=
  [{', '.join(v)}]

theorem {nm}Entries_ok : ∀ e ∈ {nm}Entries, entryOk MinCoeffs.{t} e = true := by
  simp only [{nm}Entries, List.forall_mem_cons, List.not_mem_nil, false_imp_iff, implies_true, and_true]
  exact ⟨{', '.join(x + '_ok' for x in v)}⟩
"""
o += '\nend QMat.MinCert\n'
open(os.path.join(os.path.dirname(__file__), '..', 'lean', 'Verif', 'Lemmas', 'MinCertTable.lean'), 'w').write(o)

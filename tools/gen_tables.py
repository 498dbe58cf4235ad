#!/usr/bin/env python3
"""Writes lean/Verif/Model/Tables.lean: the Butcher tables of /repo/qmat/qcoeff/butcher.py.

The class bodies are evaluated in exact arithmetic: rationals, plus multiples of sqrt(2) or sqrt(3);
float literals are read as decimals."""
import ast,re
from fractions import Fraction as F
src=open('/repo/qmat/qcoeff/butcher.py').read()
tree=ast.parse(src)
# number a + b*sqrt2 + c*sqrt3
class N:
    def __init__(s,a,b=0,c=0): s.a,s.b,s.c=F(a),F(b),F(c)
    def isq(s): return s.b==0 and s.c==0
    def __add__(s,o): o=n(o); return N(s.a+o.a,s.b+o.b,s.c+o.c)
    __radd__=__add__
    def __neg__(s): return N(-s.a,-s.b,-s.c)
    def __sub__(s,o): return s+(-n(o))
    def __rsub__(s,o): return n(o)+(-s)
    def __mul__(s,o):
        o=n(o)
        assert not(s.b and o.c) and not(s.c and o.b)
        return N(s.a*o.a+2*s.b*o.b+3*s.c*o.c, s.a*o.b+s.b*o.a, s.a*o.c+s.c*o.a)
    __rmul__=__mul__
    def inv(s):
        if s.c: d=s.a**2-3*s.c**2; return N(s.a/d,0,-s.c/d)
        d=s.a**2-2*s.b**2; return N(s.a/d,-s.b/d,0)
    def __truediv__(s,o): return s*n(o).inv()
    def __rtruediv__(s,o): return n(o)*s.inv()
    def __eq__(s,o): o=n(o); return (s.a,s.b,s.c)==(o.a,o.b,o.c)
    def __float__(s): return float(s.a)+float(s.b)*2**.5+float(s.c)*3**.5
    def __repr__(s):
        r=str(s.a)
        if s.b: r+='+%s*s2'%s.b
        if s.c: r+='+%s*s3'%s.c
        return r
def n(x): return x if isinstance(x,N) else N(x)
schemes={}
def ev(e,env,cls):
    t=type(e)
    if t is ast.Constant:
        if isinstance(e.value,(int,)): return N(e.value)
        if isinstance(e.value,float): return N(F(ast.get_source_segment(src,e).rstrip('.') or '0'))
        return e.value
    if t is ast.UnaryOp: return -ev(e.operand,env,cls)
    if t is ast.BinOp:
        l=ev(e.left,env,cls); r=ev(e.right,env,cls)
        if type(e.op) is ast.Pow:
            assert r==F(1,2); return N(0,1) if l==2 else N(0,0,1)
        if isinstance(l,list): assert type(e.op) is ast.Div; return [x/r for x in l]
        return {ast.Add:lambda:l+r,ast.Sub:lambda:l-r,ast.Mult:lambda:l*r,ast.Div:lambda:l/r}[type(e.op)]()
    if t in(ast.List,ast.Tuple): return [ev(x,env,cls) for x in e.elts]
    if t is ast.Name: return env[e.id]
    if t is ast.Attribute: return schemes[e.value.id][e.attr]
    if t is ast.Call:
        f=ast.unparse(e.func)
        if f=='np.array': return ev(e.args[0],env,cls)
        if f=='np.sqrt': return N(0,1)
        if f=='np.zeros':
            a=ev(e.args[0],env,cls)
            if isinstance(a,list): return [[N(0)]*int(a[1].a) for _ in range(int(a[0].a))]
            return [N(0)]*int(a.a)
    if t is ast.Subscript:
        v=ev(e.value,env,cls); s=ast.unparse(e.slice)
        if s in('-1','(-1, :)','-1, :'): return v[-1]
        return v[int(ev(e.slice,env,cls).a)]
    raise Exception(ast.dump(e))
for c in tree.body:
    if isinstance(c,ast.ClassDef) and c.name!='RK':
        base=c.bases[0].id
        env=dict(schemes.get(base,{})) if base!='RK' else {}
        inh=dict(env); loc={}
        loc['aliases']=inh.get('aliases')
        for st in c.body:
            if isinstance(st,ast.Assign):
                tg=st.targets[0]
                if isinstance(tg,ast.Name):
                    if tg.id=='aliases': loc['aliases']=[x.value for x in st.value.elts]; continue
                    if tg.id=='CONV_TEST_NSTEPS': continue
                    loc[tg.id]=ev(st.value,{**loc},c)
                else:
                    arr=loc[tg.value.id]; sl=tg.slice; v=ev(st.value,loc,c)
                    if isinstance(sl,ast.Tuple):
                        i=int(ev(sl.elts[0],loc,c).a)
                        if isinstance(sl.elts[1],ast.Slice):
                            up=sl.elts[1].upper; up=len(arr[i]) if up is None else int(ev(up,loc,c).a)
                            if not isinstance(v,list): v=[v]*up
                            assert len(v)==up,(c.name,i)
                            arr[i]=v+arr[i][up:]
                        else:
                            arr[i]=list(arr[i]); arr[i][int(ev(sl.elts[1],loc,c).a)]=v
                    else:
                        i=int(ev(sl,loc,c).a); arr[i]=v
            elif isinstance(st,ast.For):
                A=loc['A'];b=loc['b']
                for i in range(len(A)):
                    A[i]=list(A[i]); A[i][i]=loc['gamma']; A[i][0]=A[i][1]; A[7]=list(A[7]); A[7][i]=b[i]
            elif isinstance(st,ast.FunctionDef):
                loc[st.name]=ev(st.body[0].value,{},c).a
        loc['base']=base
        for k,v in inh.items():
            if k not in loc: loc[k]=v
        loc['line']=c.lineno
        schemes[c.name]=loc

import os
out = os.path.dirname(os.path.dirname(os.path.abspath(__file__))) + "/lean/Verif/Model/Tables.lean"
lines = ["import Verif.Model.Butcher", "", "/-!",
         "# Butcher tables of `qmat/qcoeff/butcher.py`", "",
         "Generated by `tools/gen_tables.py`, which evaluates the class bodies in exact arithmetic: rationals",
         "and multiples of `√2`, `√3`; decimal literals are read as decimals.  `q n m` is `n/m`, `r n m k l` is",
         "`n/m + k/l √d`.  `orderEmbedded` is `order - 1` unless overridden (`qcoeff/__init__.py` 132-135).",
         "-/", "", "namespace QMat.Tables", "", "open Quad", ""]
end_line = {}
for c in tree.body:
    if isinstance(c, ast.ClassDef):
        end_line[c.name] = c.end_lineno
def num(x, d):
    irr = x.b if d == 2 else x.c
    if irr == 0:
        if x.a.denominator == 1:
            return "q %d" % x.a if x.a >= 0 else "q (%d)" % x.a
        return ("q %d %d" if x.a >= 0 else "q (%d) %d") % (x.a.numerator, x.a.denominator)
    f = lambda v: ("%d %d" if v >= 0 else "(%d) %d") % (v.numerator, v.denominator)
    return "r " + f(x.a) + " " + f(irr)
def wrap(items, ind):
    res, cur = [], ""
    for k, it in enumerate(items):
        it = it + (", " if k < len(items) - 1 else "")
        if len(ind) + len(cur) + len(it) > 98 and cur:
            res.append(cur.rstrip()); cur = ""
        cur += it
    res.append(cur)
    return ("\n" + ind).join(res)
def vec(v, d, ind): return "[" + wrap([num(x, d) for x in v], ind + " ") + "]"
names = []
for name, s in schemes.items():
    d = 3 if any(x.c for r in s["A"] for x in r) else 2
    o = int(s["order"]); oe = int(s.get("orderEmbedded", o - 1))
    al = s["aliases"] or []
    base = "" if s["base"] == "RK" else ", subclass of `%s`" % s["base"]
    lines.append("/-- `butcher.py` %d-%d, class `%s`%s. -/" % (s["line"], end_line[name], name, base))
    lines.append("def t%s : RKTable where" % name)
    lines.append('  name := "%s"' % name)
    lines.append("  aliases := [%s]" % ", ".join('"%s"' % a for a in al))
    lines.append("  d := %d" % d)
    lines.append("  A := [" + ",\n        ".join(vec(r, d, "        ") for r in s["A"]) + "]")
    lines.append("  b := " + vec(s["b"], d, "       "))
    lines.append("  c := " + vec(s["c"], d, "       "))
    b2 = s.get("b2")
    lines.append("  b2 := none" if b2 is None else "  b2 := some " + vec(b2, d, "             "))
    lines.append("  order := %d" % o)
    lines.append("  orderEmbedded := %d" % oe)
    lines.append("")
    names.append("t" + name)
lines.append("/-- `butcher.py` 95-96: the classes stored in `RK_SCHEMES`, in the order of their definition. -/")
lines.append("def rkSchemes : List RKTable :=")
lines.append("  [" + wrap(names, "   ") + "]")
lines += ["", "end QMat.Tables", ""]
open(out, "w").write("\n".join(lines))

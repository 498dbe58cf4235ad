#!/usr/bin/env python3
"""Writes lean/Verif/Model/MinCoeffs.lean: the tables of /repo/qmat/qdelta/mincoeffs.py, float
literals read as decimals."""
import ast
from fractions import Fraction as F
src=open('/repo/qmat/qdelta/mincoeffs.py').read()
tree=ast.parse(src)
out=['''import Mathlib.Data.Rat.Defs

/-!
# Model of `qmat/qdelta/mincoeffs.py`

Generated by `tools/gen_mincoeffs.py`; float literals are read as decimals.
-/

namespace QMat.MinCoeffs

/-- `table[nodeType][quadType][nNodes]`: nested dictionaries, as lists of key/value pairs. -/
abbrev Table := List (String × List (String × List (ℕ × List ℚ)))
''']
def num(e):
    if isinstance(e,ast.UnaryOp): return -num(e.operand)
    return F(ast.get_source_segment(src,e))
def lean(f): return str(f.numerator) if f.denominator==1 else f'{f.numerator}/{f.denominator}'
for s in tree.body:
    if isinstance(s,ast.Assign):
        name=s.targets[0].id
        out.append(f'/-- `mincoeffs.py` {s.lineno}-{s.end_lineno}. -/\ndef {name} : Table := [')
        rows=[]
        for k1,v1 in zip(s.value.keys,s.value.values):
            r2=[]
            for k2,v2 in zip(v1.keys,v1.values):
                r3=[]
                for k3,v3 in zip(v2.keys,v2.values):
                    r3.append(f'    ({k3.value}, [{", ".join(lean(num(x)) for x in v3.elts)}])')
                r2.append(f'  ("{k2.value}", [\n'+',\n'.join(r3)+'])')
            rows.append(f' ("{k1.value}", [\n'+',\n'.join(r2)+'])')
        out.append(',\n'.join(rows)+']\n')
out.append('end QMat.MinCoeffs')
open('/verif/lean/Verif/Model/MinCoeffs.lean','w').write('\n'.join(out)+'\n')

#!/usr/bin/env python3
"""Transcribes the bonus-order branches of getOrderSDC (/repo/qmat/utils/sdc.py) from the syntax tree:
one table entry per `order += n` under nested `if`s, with the tests met on the way."""
import ast, os
src = open('/repo/qmat/utils/sdc.py').read()
fun = next(n for n in ast.parse(src).body if isinstance(n, ast.FunctionDef) and n.name == 'getOrderSDC')
rows = []

def tests(t):
    if isinstance(t, ast.BoolOp):
        assert isinstance(t.op, ast.And)
        return [x for v in t.values for x in tests(v)]
    assert isinstance(t, ast.Compare) and len(t.ops) == 1 and isinstance(t.left, ast.Name)
    v = ast.literal_eval(t.comparators[0])
    if isinstance(t.ops[0], ast.Eq):
        return [(t.left.id, [v])]
    assert isinstance(t.ops[0], ast.In)
    return [(t.left.id, list(v))]

def walk(stmts, conds):
    for s in stmts:
        if isinstance(s, ast.If):
            c = tests(s.test)
            walk(s.body, conds + c)
            # an elif chain tests the same variable for different values: exclusive by itself
            for e in s.orelse:
                assert isinstance(e, ast.If)
                assert [n for n, _ in c] == [n for n, _ in tests(e.test)] == ['nSweeps']
                assert not set(c[0][1]) & set(tests(e.test)[0][1])
            walk(s.orelse, conds)
        else:
            assert isinstance(s, ast.AugAssign) and s.target.id == 'order' and isinstance(s.op, ast.Add)
            rows.append((s.lineno, dict(conds), ast.literal_eval(s.value)))
            assert len(dict(conds)) == len(conds)

start = next(i for i, s in enumerate(fun.body)
             if isinstance(s, ast.Assign) and isinstance(s.value, ast.Call)
             and getattr(s.value.func, 'id', '') == 'min')
body = fun.body[start + 1:]
assert isinstance(body[-1], ast.Return) and body[-1].value.id == 'order'
walk(body[:-1], [])
q = lambda l: '[' + ', '.join('"%s"' % x for x in l) + ']'
out = ['import Verif.Model.QCoeff', '', '/-!', '# Bonus orders of `getOrderSDC`',
       '', 'Generated by `tools/gen_ordersdc.py` from `/repo/qmat/utils/sdc.py`; do not edit.', '-/', '',
       'namespace QMat', '',
       '/-- One `order += bonus` of `getOrderSDC` with the tests that guard it; an empty list stands for no test',
       'of that variable. -/',
       'structure OrderBonus where',
       '  /-- line of `sdc.py` -/', '  line : ℕ',
       '  stepUpdate : String', '  qDelta : String', '  nSweeps : ℕ', '  nNodes : ℕ',
       '  nodeTypes : List String', '  quadTypes : List String', '  bonus : ℕ', '',
       '/-- `sdc.py` %d-%d, in order of appearance. -/' % (body[0].lineno, rows[-1][0]),
       'def orderBonuses : List OrderBonus := [']
for i, (l, c, b) in enumerate(rows):
    assert set(c) <= {'stepUpdate', 'qDelta', 'nSweeps', 'nNodes', 'nodeType', 'quadType'}
    assert all(len(c[k]) == 1 for k in ('stepUpdate', 'qDelta', 'nSweeps', 'nNodes'))
    out.append('  ⟨%d, "%s", "%s", %d, %d, %s, %s, %d⟩%s' % (
        l, c['stepUpdate'][0], c['qDelta'][0], c['nSweeps'][0], c['nNodes'][0],
        q(c.get('nodeType', [])), q(c.get('quadType', [])), b, ',' if i + 1 < len(rows) else ']'))
out += ['', 'end QMat', '']
open(os.path.join(os.path.dirname(os.path.abspath(__file__)), '../lean/Verif/Model/OrderSDC.lean'), 'w').write('\n'.join(out))
print(len(rows))

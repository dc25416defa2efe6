#!/usr/bin/env python3
"""Writes lean/Verif/Model/Release.lean: the model of the release build, in which i32 arithmetic wraps.

Every definition of the (dev-profile) model that depends on `chk` is copied with the suffix `W`, `chk` replaced by
`wrp`.  Definitions that do not depend on `chk` are shared.  A few definitions that use a checked value again by
writing the sum once more are given by hand below (OVERRIDE)."""
import re, os
R = os.path.join(os.path.dirname(__file__), '..', 'lean', 'Verif', 'Model')
FILES = ['Term', 'Polynomial', 'DivisionPolynomial', 'QSeries', 'SubscriptedVariable', 'Solve', 'ModularPolynomial', 'Schoof']
DOT = """mul div power powerModulo toFrob toYPower toQPower evalQ evalXPolynomial evalYPolynomial mulTerm termMul mulAssign
divTerm termDiv divAssign divAssignTerm square cube omitHighOrderQ powerOmitHighOrderQ polynomialModular toMonic gcd isGcdOne
reduction reductionModular visits count indexFromVariable variableFromIndex""".split()
BARE = """termMul powLoop powModLoop polyModLoop gcd polynomialModular reductionModularAux psi phi sigmaDivisor eisenstein4 delta1 delta1Inverse jInvariant1
jInvariantQ findVariable subscriptedVariableModularPolynomial subscriptedVariableModularPolynomialQ
subscriptedVariableModularPolynomialList modularRow modularAssemble modularPolynomial schoof2 schoofNumDen1 schoofXTest
schoofFindJ schoofY schoofDE schoofL schoofLoop schoof seaWith sea solve""".split()
NAMES = set(DOT) | set(BARE) | {'omega'}  # `omega` is also a tactic: see rename
OVERRIDE = {
 'visits': ('''def visitsW (c : Converter) : List (Int × Int) :=
  let p1 := wrap32 (c.p + 1)
  ((irange 0 p1).flatMap (fun i => (irange (i + 1) p1).map (fun j => (i, j))))
  ++ (irange 0 p1).map (fun i => (i, i))
'''),
 'count': '''def countW (c : Converter) : Res Nat :=
  .ok (c.visitsW.foldl (fun index _ => index + 1) 0)
''',
 'indexFromVariable': '''def indexFromVariableW (c : Converter) (v : SubVar) : Res (Option Nat) := do
  if v.empty then .ok none
  else match findIndex v.i v.j c.visitsW 0 with
    | some k => .ok (some k)
    | none => .panic .explicit
''',
 'variableFromIndex': '''def variableFromIndexW (c : Converter) (index : Nat) : Res SubVar :=
  findVariableW (asI32 index) c.visitsW 0
''',
}
HEAD = '''import Verif.Model.Schoof

/-! Generated by tools/release.py from the other `Model` files: the *release* build, in which `i32` arithmetic wraps
instead of panicking.  Each definition is the one without the suffix `W`, with `chk` (checked) replaced by `wrp` (wrapping);
functions in which no `i32` operation can overflow are shared with the dev-profile model. -/

namespace EC

open TermBuilder (new)

/-- The `i32` with the same low 32 bits as `n`. -/
def wrap32 (n : Int) : Int := (n + 2147483648) % 4294967296 - 2147483648

/-- Result of an `i32` operation in the release profile (overflow checks off): it wraps. -/
def wrp (n : Int) : Res Int := .ok (wrap32 n)

'''
def blocks(src):
    """(namespace stack, doc, def text) of each top-level def."""
    ns = []; out = []; doc = ''; i = 0
    lines = src.split('\n')
    while i < len(lines):
        l = lines[i]
        m = re.match(r'namespace (\S+)', l)
        if m: ns.append(m.group(1))
        elif re.match(r'end (\S+)', l) and ns and l.split()[1] == ns[-1]: ns.pop()
        elif l.startswith('/--'):
            doc = l
            while not doc.rstrip().endswith('-/'):
                i += 1; doc += '\n' + lines[i]
        elif l.startswith('def '):
            t = l
            while i + 1 < len(lines) and (lines[i+1].startswith((' ', '\t')) or re.match(r'(termination_by|decreasing_by)', lines[i+1])):
                i += 1; t += '\n' + lines[i]
            out.append(('.'.join(ns[1:]), doc, t + '\n')); doc = ''
        i += 1
    return out
def rename(t):
    t = re.sub(r'\bchk\b', 'wrp', t)
    t = re.sub(r'\bEC\.(power|powerModulo)\b', r'@@\1@@', t)
    t = re.sub(r'\.(' + '|'.join(sorted(DOT, key=len, reverse=True)) + r')\b', r'.\1W', t)
    t = re.sub(r'(?<![\w.@])(' + '|'.join(sorted(BARE, key=len, reverse=True)) + r')\b(?! *:=)', r'\1W', t)
    t = re.sub(r'(?<![\w.])omega(?= a b)', 'omegaW', t)
    t = re.sub(r'@@(\w+)@@', r'EC.\1', t)
    t = t.replace('.panic .overflow', '.panic .indexOutOfBounds')  # `col_count - 1` wraps, `a[row[0]][0]` is out of bounds
    return t
out = HEAD; cur = None
for f in FILES:
    for ns, doc, t in blocks(open(f'{R}/{f}.lean').read()):
        name = re.match(r'def (\S+)', t).group(1); short = name.split('.')[-1]
        if short not in NAMES: continue
        if ns != cur:
            if cur: out += f'end {cur}\n\n'
            if ns: out += f'namespace {ns}\n\n'
            cur = ns
        d = doc.replace('/-- ', '/-- Release build: ', 1)
        if short in OVERRIDE: body = OVERRIDE[short]
        else:
            body = rename(t)
            body = re.sub(r'^def (\S+?)W?(?= )', lambda m: 'def ' + m.group(1) + 'W', body)
        out += d + '\n' + body + '\n'
if cur: out += f'end {cur}\n\n'
out += 'end EC\n'
open(f'{R}/Release.lean', 'w').write(out)

#!/usr/bin/env python3
"""Translate the LaTeX outputs stored in /repo/example/*.ipynb into expressions of the model (lean/Verif/Props/Notebooks.lean).

usage: notebooks.py <repo>           writes the Lean text on the standard output
"""
import json, re, sys, os

class P:
    """A reader for the LaTeX that sympy prints."""
    def __init__(self, s): self.s = s; self.i = 0
    def ws(self):
        while self.i < len(self.s) and (self.s[self.i] in ' \n' or self.s.startswith('\\ ', self.i)): self.i += 1
    def at(self, t): self.ws(); return self.s.startswith(t, self.i)
    def eat(self, t):
        if self.at(t): self.i += len(t); return True
        return False
    def need(self, t): assert self.eat(t), (t, self.s[self.i:self.i + 60])
    def re(self, r):
        self.ws(); m = re.compile(r).match(self.s, self.i)
        if m: self.i = m.end()
        return m
    def group(self):
        """the text between braces"""
        self.need('{'); d = 1; j = self.i
        while d:
            d += {'{': 1, '}': -1}.get(self.s[self.i], 0); self.i += 1
        return self.s[j:self.i - 1]
    def expr(self):
        neg = self.eat('-'); a = self.term()
        if neg: a = neg_(a)
        while True:
            if self.eat('+'): a = ('add', a, self.term())
            elif self.eat('-'): a = ('add', a, neg_(self.term()))
            else: return a
    def term(self):
        fs = [self.factor()]
        while True:
            self.ws()
            if self.i >= len(self.s) or any(self.at(t) for t in ['+', '-', '=', '}', '\\right', ',', ':', '$']): break
            fs.append(self.factor())
        a = fs[-1]
        for f in reversed(fs[:-1]): a = ('mul', f, a)
        return a
    def power(self, a):
        if self.eat('^'): return ('pow', a, rat(self.group()))
        return a
    def args(self):
        if self.eat('{\\left('):
            m = self.re(r'([^\\]*(?:\\omega)?) *\\right\)\}'); assert m
            return [x.strip().replace('\\omega', 'omega') for x in m.group(1).split(',')]
        return None
    def named(self, name):
        q = rat(self.group()) if self.eat('^') else None
        a = self.args()
        r = ('fn', fname(name), a) if a is not None else ('sym', name)
        return r if q is None else ('pow', r, q)
    def factor(self):
        m = self.re(r'\\frac\{(?:\\partial|d)(?:\^\{\d+\})?\}\{((?:\s*(?:\\partial|d) ?\w(?:\^\{\d+\})?)+)\}')
        if m:
            vs = [(x, int(n or 1)) for x, n in re.findall(r'(?:\\partial|d) ?(\w)(?:\^\{(\d+)\})?', m.group(1))]
            return ('deriv', self.factor(), sorted(vs))
        if self.eat('\\frac'):
            a, b = P(self.group()).all(), P(self.group()).all()
            return ('mul', a, inverse(b))
        if self.eat('{\\mathbb E}\\left('):
            a = self.expr(); self.need('\\right)'); return ('ex', a)
        if self.eat('\\left('):
            a = self.expr(); self.need('\\right)'); return self.power(a)
        if self.eat('\\sqrt'): return ('pow', P(self.group()).all(), (1, 2))
        if self.eat('\\operatorname'): return self.named(self.group())
        m = self.re(r'\d+')
        if m: return self.power(('num', (int(m.group()), 1)))
        m = self.re(r'\\kappa|[A-Za-z](?:_\{\w+\})?')
        if m: return self.named(m.group())
        raise ValueError(self.s[self.i:self.i + 80])
    def all(self):
        a = self.expr(); self.ws(); assert self.i == len(self.s), self.s[self.i:]; return a

def neg_(a): return ('mul', ('num', (-1, 1)), a)
def inverse(a):
    """the inverse of a denominator, factor by factor"""
    if a[0] == 'mul': return ('mul', inverse(a[1]), inverse(a[2]))
    if a[0] == 'pow' and a[1][0] != 'num': return ('pow', a[1], (-a[2][0], a[2][1]))
    if a[0] == 'num': return ('num', (1, a[1][0]))
    return ('pow', a, (-1, 1))
def rat(s):
    m = re.match(r'\\frac\{(\d+)\}\{(\d+)\}$', s)
    return (int(m.group(1)), int(m.group(2))) if m else (int(s), 1)
def fname(n):
    m = re.match(r'\{(\\?\w+)\}_\{(.*)\}$', n) or re.match(r'\{(\\?\w+?)_\{(.*)\}\}$', n)
    if m: return '{%s_{%s}}' % m.groups()
    m = re.match(r'V_\{(\w+)\}$', n)
    return 'V_' + m.group(1) if m else n

def txt(s): return {'t': 't', 'x': 'x', 'y': 'y'}.get(s) or '"%s".toList' % s.replace('\\', '\\\\')
def q(r): return '(%d)' % r[0] if r[1] == 1 else '(%d / %d)' % r
def lean(a):
    k = a[0]
    if k == 'num': return '.num ' + q(a[1])
    if k == 'sym': return '.sym ' + txt(a[1].lstrip('\\'))
    if k == 'fn': return '.fn %s [%s]' % (txt(a[1]), ', '.join(txt(x) if x != 'omega' else 'omega' for x in a[2]))
    if k in ('add', 'mul'): return '.%s (%s) (%s)' % (k, lean(a[1]), lean(a[2]))
    if k == 'pow': return '.pow (%s) %s' % (lean(a[1]), q(a[2]))
    if k == 'deriv': return '.deriv (%s) [%s]' % (lean(a[1]), ', '.join('(%s, %d)' % (txt(x), n) for x, n in a[2]))
    if k == 'ex': return '.ex (%s)' % lean(a[1])

def outputs(path, cell):
    nb = json.load(open(path))
    return [''.join(o['data']['text/latex']) for o in nb['cells'][cell]['outputs'] if 'text/latex' in o.get('data', {})]
def strip(s):
    s = s.strip(); assert s.startswith('$\\displaystyle') and s.endswith('$'); return s[len('$\\displaystyle'):-1].strip()
def equation(s):
    p = P(strip(s)); l = p.expr(); p.need('='); r = p.expr(); p.ws(); assert p.i == len(p.s), p.s[p.i:]
    return l, r
def pairs(s):
    """a dictionary {a : b, ..}"""
    p = P(strip(s)); p.need('\\left\\{'); out = []
    while not p.eat('\\right\\}'):
        k = p.expr(); p.need(':'); v = p.expr(); out.append((k, v)); p.eat(',')
    return out

EX = [  # notebook, cell, name of the Lean definition
    ("PKF on the 2D advection.ipynb", 11, 'advectionMetric'),
    ("PKF on 1D multivariate oscillator.ipynb", 10, 'oscillatorMetric'),
    ("PKF on 1D multivariate oscillator.ipynb", 11, 'oscillatorAspect'),
    ("PKF on 1D multivariate oscillator.ipynb", 12, 'oscillatorClosure'),
    ("PKF on 2D multivariate oscillator.ipynb", 10, 'oscillator2Metric'),
    ("PKF on 1D chemical transport model.ipynb", 11, 'chemistryMetric'),
    ("PKF on 1D chemical transport model.ipynb", 15, 'transportMetric'),
    ("PKF on 1D chemical transport model.ipynb", 17, 'transportAspect'),
    ("PKF on Burgers.ipynb", 15, 'burgersMetric'),
    ("PKF on Burgers.ipynb", 16, 'burgersAspect'),
    ("PKF on Burgers.ipynb", 20, 'nonlinearAspect'),
    ("PKF on Burgers.ipynb", 21, 'diffusionAspect'),
    ("PKF on Burgers.ipynb", 25, 'burgersTree'),
    ("PKF on Burgers.ipynb", 30, 'burgersUnclosed'),
    ("PKF on Burgers.ipynb", 40, 'burgersP18'),
    ("PKF on Burgers.ipynb", 42, 'closedAspect'),
]

HEAD = """import Verif.Model.Pkf

/-!
# Recorded outputs of the program

The notebooks of `example/` keep the formulas that SymPKF displayed when they were run.  This file is their translation by
`tools/notebooks.py`: `\\\\frac{a}{b c}` is read as `a b ** -1 c ** -1`, which is how SymPy stores it.
-/

set_option autoImplicit false

namespace Sympkf.Notebooks

open Sympkf.Text Sympkf.Rand Sympkf.PKF

def t : Str := "t".toList
def x : Str := "x".toList
def y : Str := "y".toList
"""

def main(repo):
    print(HEAD)
    for nb, cell, name in EX:
        outs = outputs(os.path.join(repo, 'example', nb), cell)
        print('/-! Cell %d of example/%s. -/\n' % (cell, nb))
        if all('\\left\\{' in o for o in outs): eqs = [kv for s in outs for kv in pairs(s)]
        elif all('=' in o for o in outs): eqs = [equation(s) for s in outs]
        else: eqs = None
        if eqs is None:
            print('def %s : List Ex :=\n  [%s]\n' % (name, ',\n   '.join(lean(P(strip(s)).all()) for s in outs)))
        else:
            for i, (l, r) in enumerate(eqs): print('def %s%d : Eqn :=\n  (%s,\n   %s)' % (name, i, lean(l), lean(r)))
            print('def %s : List Eqn := [%s]\n' % (name, ', '.join('%s%d' % (name, i) for i in range(len(eqs)))))
    print('end Sympkf.Notebooks')

if __name__ == '__main__': main(sys.argv[1])

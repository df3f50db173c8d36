#!/usr/bin/env python3
"""Transcribe constructors and solver calls of the estimators in /repo into Verif/Model/OptionTable.lean.

Every constructor becomes a `Cls` value: the parameter names, the arguments handed to the parent constructor and the
attributes assigned afterwards. Every call of a solver inside `fit` or `_fit` becomes a `SolverCall` value. Expressions
other than a bare parameter, or a bare attribute of self, are kept as text.
"""
import ast
import glob
import sys

ROOT = "/repo/"
# estimators, parents first
NAMES = [
    "GraphicalLasso", "LatentGraphicalLasso", "MissingGraphicalLasso", "BayesianGraphicalLasso", "TimeGraphicalLasso",
    "LatentTimeGraphicalLasso", "LatentTimeMatrixDecomposition", "KernelTimeGraphicalLasso",
    "SimilarityTimeGraphicalLasso", "KernelLatentTimeGraphicalLasso", "SimilarityLatentTimeGraphicalLasso",
    "TimeGraphicalLassoForwardBackward", "WishartProcess", "DiscriminantAnalysis", "PrecomputedDiscriminantAnalysis",
    "GLM_GM", "Gaussian_GLM_GM", "IsingGraphicalModel", "PoissonGraphicalModel", "TemporalIsingModel",
    "SimilarityTemporalIsingModel", "TemporalPoissonModel", "SimilarityTemporalPoissonModel", "GroupLassoOverlap",
    "GraphicalModelStabilitySelection",
]
EXTERNAL = {
    "GraphLasso": ["alpha", "mode", "tol", "max_iter", "verbose", "assume_centered"],
    "GridSearchCV": ["estimator", "param_grid", "scoring", "n_jobs", "iid", "refit", "cv", "verbose", "pre_dispatch",
                     "error_score", "return_train_score"],
}


def short(s):
    return " ".join(s.split())


def lean_str(s):
    return '"' + short(s).replace("\\", "\\\\").replace('"', '\\"') + '"'


def src(e, params):
    if isinstance(e, ast.Name) and e.id in params:
        return '.param %s' % lean_str(e.id)
    return '.code %s' % lean_str(ast.unparse(e))


def stored(name):
    """Attributes assigned by the methods of a class other than the constructor."""
    out = set()
    for m in classes[name][1].body:
        if isinstance(m, ast.FunctionDef) and m.name != "__init__":
            for x in ast.walk(m):
                if isinstance(x, ast.Attribute) and isinstance(x.value, ast.Name) and x.value.id == "self" \
                        and isinstance(x.ctx, ast.Store):
                    out.add(x.attr)
    return out


def arg(e, assigned):
    if isinstance(e, ast.Attribute) and isinstance(e.value, ast.Name) and e.value.id == "self" \
            and e.attr not in assigned:
        return '.attr %s' % lean_str(e.attr)
    return '.code %s' % lean_str(ast.unparse(e))


def wrap(items, indent="    "):
    lines, cur = [], ""
    for k, it in enumerate(items):
        piece = it + (", " if k + 1 < len(items) else "")
        if len(cur) + len(piece) > 112 and cur:
            lines.append(cur.rstrip())
            cur = piece
        else:
            cur += piece
    lines.append(cur)
    return "[" + ("\n" + indent).join(lines) + "]"


classes, functions = {}, {}
for f in sorted(glob.glob(ROOT + "regain/**/*.py", recursive=True)):
    if "/tests/" in f:
        continue
    rel = f[len(ROOT):]
    imports = {}
    tree = ast.parse(open(f).read())
    for n in tree.body:
        if isinstance(n, ast.ClassDef):
            classes[n.name] = (rel, n)
        elif isinstance(n, ast.FunctionDef):
            functions.setdefault(n.name, []).append((rel, n))


def base_of(name):
    for b in classes[name][1].bases:
        b = ast.unparse(b).split(".")[-1]
        if b in NAMES or b in EXTERNAL:
            return b
    return None


def lower(name):
    return "c" + name.replace("_", "")


out = []
w = out.append
w('import Verif.Model.Options\n')
w('/-! Generated by tools/gen_options.py from the text of /repo: the constructors of the estimators and the solver calls in')
w('their `fit` and `_fit` methods. -/\n')
w('namespace Verif.Model.OptionTable\n')
w('open Verif.Model\n')
w('set_option autoImplicit false\n')
for e, ps in EXTERNAL.items():
    w('/-- The external class `%s` of scikit-learn: its constructor stores every parameter under its name. -/' %
      {"GraphLasso": "GraphicalLasso", "GridSearchCV": "GridSearchCV"}[e])
    w('def %s : Cls := .ext "%s" %s\n' % ("sk" + e, e, wrap(['"%s"' % p for p in ps])))
order_ok = []
for name in NAMES:
    rel, n = classes[name]
    init = [m for m in n.body if isinstance(m, ast.FunctionDef) and m.name == "__init__"]
    assert init, name
    init = init[0]
    params = [a.arg for a in init.args.args[1:]] + [a.arg for a in init.args.kwonlyargs]
    sup, own, sup_seen, own_before = None, [], False, False
    for st in init.body:
        if isinstance(st, ast.Expr) and isinstance(st.value, ast.Call) and isinstance(st.value.func, ast.Attribute) \
                and st.value.func.attr == "__init__":
            sup = st.value
            own_before = bool(own)
        elif isinstance(st, ast.Assign) and isinstance(st.targets[0], ast.Attribute):
            own.append((st.targets[0].attr, st.value))
        elif isinstance(st, ast.Expr) and isinstance(st.value, ast.Constant):
            pass
        else:
            assert isinstance(st, (ast.Assign, ast.If)), (name, ast.unparse(st))
    base = base_of(name)
    if sup is not None:
        # super(X, self): the lookup starts after X
        inner = sup.func.value
        at = inner.args[0].id if inner.args else name
        if at != name:
            print("super of", at, "in", name)
            base = base_of(at)
    sargs = []
    if sup is not None and base is not None:
        if base in EXTERNAL:
            bp = EXTERNAL[base]
        else:
            bi = [m for m in classes[base][1].body if isinstance(m, ast.FunctionDef) and m.name == "__init__"][0]
            bp = [a.arg for a in bi.args.args[1:]]
        for q, e in zip(bp, sup.args):
            sargs.append((q, e))
        for k in sup.keywords:
            sargs.append((k.arg, k.value))
    # without a super call the parent stores nothing
    parent = ".none" if sup is None or base is None else \
        ("sk" + base if base in EXTERNAL else lower(base))
    assert not (own_before and sup is not None and {a for a, _ in own} & {q for q, _ in sargs}), name
    end = max(st.end_lineno for st in init.body)
    w('/-- `%s.__init__`, %s:%d-%d. -/' % (name, rel, init.lineno, end))
    w('def %s : Cls := .sub "%s" %s' % (lower(name), name, parent))
    w('    ' + wrap(['"%s"' % p for p in params], "     "))
    w('    ' + wrap(['("%s", %s)' % (q, src(e, params)) for q, e in sargs], "     "))
    w('    ' + wrap(['("%s", %s)' % (a, src(e, params)) for a, e in own], "     ") + '\n')

calls = []
used = set()
for name in NAMES:
    rel, n = classes[name]
    for m in n.body:
        if isinstance(m, ast.FunctionDef) and m.name in ("fit", "_fit"):
            k = 0
            for c in ast.walk(m):
                if isinstance(c, ast.Call) and isinstance(c.func, ast.Name) and c.keywords and c.func.id in functions:
                    cands = functions[c.func.id]
                    same = [x for x in cands if x[0] == rel] or cands
                    srel, fn = same[0]
                    fp = [a.arg for a in fn.args.args]
                    b = [(q, e) for q, e in zip(fp, c.args)] + [(kw.arg, kw.value) for kw in c.keywords if kw.arg]
                    calls.append((name, m.name, rel, c.lineno, c.end_lineno, c.func.id, srel, fn, b))
seen = {}
names_out = []
for name, meth, rel, a, b, fid, srel, fn, bind in sorted(calls, key=lambda t: (NAMES.index(t[0]), t[3])):
    if len(bind) < 6:
        continue
    idx = seen.get(name, 0)
    seen[name] = idx + 1
    nm = "call" + name.replace("_", "") + ("" if idx == 0 else str(idx + 1))
    names_out.append((nm, name))
    fp = [x.arg for x in fn.args.args]
    w('/-- The call of `%s` in `%s.%s`, %s:%d-%d; the signature is %s:%d. -/' %
      (fid, name, meth, rel, a, b, srel, fn.lineno))
    w('def %s : SolverCall := ⟨"%s",' % (nm, fid))
    w('    ' + wrap(['"%s"' % p for p in fp], "     ") + ',')
    w('    ' + wrap(['("%s", %s)' % (q, arg(e, stored(name))) for q, e in bind], "     ") + '⟩\n')


def mro(name):
    chain = []
    while name in classes:
        chain.append(name)
        name = base_of(name) or (
            "TimeGraphicalLasso" if name == "WishartProcess" else None)
    return chain


for name in NAMES:
    methods = {}
    for c in reversed(mro(name)):
        for m in classes[c][1].body:
            if isinstance(m, ast.FunctionDef) and m.name != "__init__":
                methods[m.name] = (classes[c][0], m)
    reads = []
    for rel, m in methods.values():
        for x in ast.walk(m):
            if isinstance(x, ast.Attribute) and isinstance(x.value, ast.Name) and x.value.id == "self" \
                    and isinstance(x.ctx, ast.Load) and x.attr not in methods and x.attr not in reads:
                reads.append(x.attr)
    where = {}
    for rel, m in methods.values():
        where.setdefault(rel, []).append("%d-%d" % (m.lineno, m.end_lineno))
    w('/-- The attributes of `self` read by the methods of `%s`, inherited ones of regain included: %s. -/' %
      (name, "; ".join("%s:%s" % (r, ", ".join(ls)) for r, ls in where.items())))
    w('def reads%s : List String :=' % name.replace("_", ""))
    w('    ' + wrap(['"%s"' % a for a in reads], "     ") + '\n')
    stores = []
    for rel, m in methods.values():
        for x in ast.walk(m):
            if isinstance(x, ast.Attribute) and isinstance(x.value, ast.Name) and x.value.id == "self" \
                    and isinstance(x.ctx, ast.Store) and x.attr not in stores:
                stores.append(x.attr)
    w('/-- The attributes of `self` assigned by the methods of `%s`, inherited ones of regain included: %s. -/' %
      (name, "; ".join("%s:%s" % (r, ", ".join(ls)) for r, ls in where.items())))
    w('def stores%s : List String :=' % name.replace("_", ""))
    w('    ' + wrap(['"%s"' % a for a in stores], "     ") + '\n')
w('end Verif.Model.OptionTable')
import textwrap
final = []
for blk in "\n".join(out).split("\n"):
    if blk.startswith("/--") and len(blk) > 118:
        final.extend(textwrap.wrap(blk, 118, break_long_words=False, break_on_hyphens=False))
    else:
        final.append(blk)
open("/verif/lean/Verif/Model/OptionTable.lean", "w").write("\n".join(final) + "\n")
print(names_out)

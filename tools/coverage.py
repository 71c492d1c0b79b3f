#!/usr/bin/env python3
"""Lists the functions of /repo whose lines no comment of Verif/Model cites, and the share that is cited."""
import ast, glob, os, re, sys

REPO = '/repo'
src = {}
for f in glob.glob(REPO + '/**/*.py', recursive=True):
    src.setdefault(os.path.basename(f), []).append(f)
cited = {}
for m in sorted(glob.glob(os.path.join(os.path.dirname(__file__), '../lean/Verif/Model/*.lean'))) + \
        [os.path.join(os.path.dirname(__file__), '../lean/Verif/Py.lean')]:
    text = open(m).read()
    head = re.findall(r'`[^`]*?([A-Za-z_ ]+\.py)`', text[:1500])
    for c in re.findall(r'/-[-!]?(.*?)-/', text, re.S):
        cur = head[0] if head else None
        for t in re.finditer(r'([A-Za-z_ ]*[A-Za-z_]\.py)|lines?\s+((?:\d+(?:\s*[-–]\s*\d+)?(?:,\s*|\s+and\s+)?)+)', c):
            if t.group(1):
                ns = [n for n in src if t.group(1).strip() == n or t.group(1).endswith(' ' + n)]
                cur = max(ns, key=len) if ns else cur
            elif cur:
                for r in re.findall(r'(\d+)(?:\s*[-–]\s*(\d+))?', t.group(2)):
                    a = int(r[0]); b = int(r[1] or r[0])
                    cited.setdefault(cur, set()).update(range(a, b + 1))
tot = cov = 0
for name in sorted(src):
    for f in src[name]:
        if not re.search(r'/src/|/simulation/', f):
            continue
        tree = ast.parse(open(f).read())
        lines = cited.get(name, set())
        body = set()
        out = []
        def walk(n, q):
            for x in ast.iter_child_nodes(n):
                if isinstance(x, ast.ClassDef):
                    walk(x, q + x.name + '.')
                elif isinstance(x, ast.FunctionDef):
                    st = [s for s in x.body if not (isinstance(s, ast.Expr) and isinstance(s.value, ast.Constant))]
                    ls = {l for s in st for l in range(s.lineno, s.end_lineno + 1)}
                    body.update(ls)
                    miss = ls - lines
                    if ls and len(miss) == len(ls):
                        out.append(f'{q}{x.name} {x.lineno}-{x.end_lineno}: not cited')
                    elif miss and '-v' in sys.argv:
                        out.append(f'{q}{x.name} {x.lineno}-{x.end_lineno}: lines {sorted(miss)} not cited')
        walk(tree, '')
        tot += len(body); cov += len(body & lines)
        print(f'{f[len(REPO)+1:]}: {len(body & lines)} of {len(body)} lines of function bodies cited')
        for o in out: print('   ', o)
print(f'total {cov} of {tot}')

#!/usr/bin/env python3
"""Apply wrong edits to a scratch copy of the model, rebuild, and report which theorems fail.

usage: mutate.py MUTANTS.jsonl [ids...]
A mutant is {"id", "definition", "file", "old", "new", "claim", "property"}; `file` is relative to lean/.
`old` must occur exactly once. The result is printed; with --log it is appended to seeded/LOG.jsonl.
"""
import json, os, re, subprocess, sys, shutil

SRC = '/verif/lean'
DST = '/tmp/scratch/lean'

def sh(cmd, **kw):
    return subprocess.run(cmd, shell=True, text=True, stdout=subprocess.PIPE, stderr=subprocess.STDOUT, **kw).stdout

def sync():
    os.makedirs(DST, exist_ok=True)
    sh(f'rsync -a --delete {SRC}/ {DST}/') if shutil.which('rsync') else sh(f'rm -rf {DST}; cp -a {SRC} {DST}')

def decl_at(path, line):
    lines = open(path).read().split('\n')
    i = min(line, len(lines)) - 1
    pat = re.compile(r'^(?:@\[[^\]]*\]\s*)?(?:private |protected |noncomputable )*(theorem|def|example|lemma|instance|abbrev)\b\s*(\S*)')
    while i >= 0:
        m = pat.match(lines[i])
        if m:
            return (m.group(2).rstrip(':') if m.group(1) != 'example' else 'example') or m.group(1)
        i -= 1
    return '?'

def imports_of(mod, cache={}):
    p = f'{DST}/{mod.replace(".", "/")}.lean'
    return re.findall(r'^import (Verif\S+)', open(p).read(), re.M)

def run(m):
    path = f'{DST}/{m["file"]}'
    src = open(path).read()
    if src.count(m['old']) != 1:
        return {'error': f'old occurs {src.count(m["old"])} times'}
    open(path, 'w').write(src.replace(m['old'], m['new']))
    out = sh(f'cd {DST} && timeout 1500 lake build 2>&1')
    failed = {}
    for f, l, msg in re.findall(r'^error: (?:\./)*(?:/tmp/scratch/lean/)?(Verif\S*?\.lean):(\d+):\d+:? ?(.*)$', out, re.M):
        failed.setdefault(f, []).append((decl_at(f'{DST}/{f}', int(l))))
    # theorems which rest on a failed declaration of the same file
    res = []
    for f, ds in failed.items():
        txt = open(f'{DST}/{f}').read()
        full, ns = [], ''
        for kind, n in re.findall(r'^(theorem|namespace) (\S+)', txt, re.M):
            if kind == 'namespace':
                ns = n
            elif n.startswith('C'):
                full.append(f'{ns}.{n}' if ns else n)
        probe = txt + '\n' + '\n'.join(f'#print axioms {n}' for n in full)
        q = f'{DST}/probe_tmp.lean'
        open(q, 'w').write(probe)
        o = sh(f'cd {DST} && timeout 1200 lake env lean probe_tmp.lean 2>&1')
        os.remove(q)
        for n, ax in re.findall(r"'(\S+)' depends on axioms: \[([^\]]*)\]", o):
            if 'sorryAx' in ax:
                res.append(n.split('.')[-1])
        res += [d for d in ds if d not in res]
    # modules not rebuilt because an import failed
    bad = {f[:-5].replace('/', '.') for f in failed}
    blocked, changed = set(), True
    mods = [os.path.relpath(os.path.join(d, x), DST)[:-5].replace('/', '.') for d, _, xs in os.walk(f'{DST}/Verif') for x in xs if x.endswith('.lean')]
    while changed:
        changed = False
        for mod in mods:
            if mod not in bad and mod not in blocked and any(i in bad or i in blocked for i in imports_of(mod)):
                blocked.add(mod); changed = True
    open(path, 'w').write(src)
    r = sorted(set(res))
    return {'failed': [x for x in r if re.match(r'C\d\d', x)], 'also': [x for x in r if not re.match(r'C\d\d', x)],
            'blocked': sorted(blocked), 'ok': 'Build completed successfully' in out}

if __name__ == '__main__':
    args = [a for a in sys.argv[1:] if not a.startswith('--')]
    log = '--log' in sys.argv
    ms = [json.loads(l) for l in open(args[0]) if l.strip()]
    ids = set(args[1:])
    sync()
    for m in ms:
        if ids and m['id'] not in ids:
            continue
        r = run(m)
        print(m['id'], m['property'], '|', m['claim'], '|', json.dumps(r), flush=True)
        if log and 'error' not in r:
            rec = {'id': m['id'], 'definition': f'{m["file"]}: {m["definition"]}', 'edit': f'{m["old"]!r} -> {m["new"]!r}',
                   'property': m['property'], 'claim_broken': m['claim'], 'theorems_failed': r['failed'], 'lemmas_failed': r['also'],
                   'modules_not_rebuilt': r['blocked'], 'theorems_tightened': m.get('tightened', [])}
            open('/verif/seeded/LOG.jsonl', 'a').write(json.dumps(rec) + '\n')

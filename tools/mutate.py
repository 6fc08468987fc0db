#!/usr/bin/env python3
"""Test the theorems against wrong programs.

usage: mutate.py MUTATIONS.json [scratch-dir]

Each entry: {"id", "file", "definition", "old", "new", "edit", "claim"}.  The edit
is made in a scratch copy of lean/; every theorem whose proof breaks gets its
proof replaced by `sorry`, until the copy builds; a property theorem failed if
it then depends on `sorryAx`.  One line per attempt is appended to
seeded/LOG.jsonl.
"""
import json, os, re, shutil, subprocess, sys
ROOT = '/verif'
SRC = os.environ.get('VERIF_SRC', ROOT)  # where lean/ and MANIFEST.json are taken from
SCR = sys.argv[2] if len(sys.argv) > 2 else '/tmp/mut'
LOG = ROOT + '/seeded/LOG.jsonl'

def sh(cmd, t=3000):
    return subprocess.run(cmd, shell=True, capture_output=True, text=True, timeout=t)

def sync():
    os.makedirs(SCR, exist_ok=True)
    sh(f'rsync -a --delete {SRC}/lean/ {SCR}/lean/ || (rm -rf {SCR}/lean && cp -a {SRC}/lean {SCR}/lean)')

def manifest():
    m = json.load(open(SRC + '/MANIFEST.json'))
    return [t for c in m['claims'] for t in c['theorems']]

DECL = re.compile(r'^(?:@\[[^\]]*\]\s*)?(?:private |protected |noncomputable )*(theorem|lemma|example|def|abbrev|instance|structure|inductive|/--|/-!|namespace|section|end|open|variable|set_option|attribute)\b|^/--|^/-!', re.M)

def patch(path, lines):
    """Replace the proofs of the theorems around the given lines."""
    s = open(path).read()
    off = [0]
    for l in s.split('\n'):
        off.append(off[-1] + len(l) + 1)
    starts = [m.start() for m in DECL.finditer(s)] + [len(s)]
    todo = {}
    names = []
    for ln in lines:
        p = off[ln - 1]
        st = [x for x in starts if x <= p]
        if not st:
            continue
        a = st[-1]
        b = [x for x in starts if x > a][0]
        todo[a] = b
    bad = False
    for a in sorted(todo, reverse=True):
        b = todo[a]
        d = s[a:b]
        m = re.match(r'(?:@\[[^\]]*\]\s*)?(?:private |protected )*(theorem|lemma|example)\s*(\S*)', d)
        if not m:
            bad = True
            names.append('?' + d.split('\n')[0][:80])
            continue
        names.append(m.group(2) if m.group(1) != 'example' else 'example')
        if m.group(1) == 'example':
            s = s[:a] + 'example : True := trivial\n\n' + s[b:]
            continue
        k = re.search(r':= by\s*\n', d) or re.search(r':=\s*by\b', d)
        ks = [x for x in re.finditer(r':=', d)]
        if k:
            c = k.start()
        elif ks:
            c = ks[0].start()
        else:
            c = len(d)
        bar = re.search(r'\n\s+\| ', d)
        if bar and bar.start() < c and not d[:bar.start()].endswith('with'):
            c = bar.start()
        s = s[:a] + d[:c] + ':= by sorry\n\n' + s[b:]
    open(path, 'w').write(s)
    return names, bad

def attempt(m):
    sync()
    p = f'{SCR}/lean/{m["file"]}'
    s = open(p).read()
    if s.count(m['old']) != 1:
        return {'error': f'pattern occurs {s.count(m["old"])} times'}
    open(p, 'w').write(s.replace(m['old'], m['new']))
    broken = []
    for it in range(14):
        r = sh(f'cd {SCR}/lean && lake build 2>&1')
        errs = re.findall(r'^error: (?:\./+)?(Verif\S*\.lean):(\d+):\d+', r.stdout, re.M)
        if not errs:
            if 'build failed' in r.stdout or r.returncode:
                return {'error': r.stdout[-600:]}
            break
        by = {}
        for f, l in errs:
            by.setdefault(f, set()).add(int(l))
        for f, ls in by.items():
            n, bad = patch(f'{SCR}/lean/{f}', ls)
            broken += n
            if bad:
                return {'error': 'definition does not elaborate', 'broken': broken}
    else:
        return {'error': 'too many rounds', 'broken': broken}
    ts = manifest()
    q = 'import Verif\n' + ''.join(f'#print axioms {t}\n' for t in ts)
    open(f'{SCR}/q.lean', 'w').write(q)
    r = sh(f'cd {SCR}/lean && lake env lean {SCR}/q.lean')
    failed = []
    for t in ts:
        k = re.search(r"'" + re.escape(t) + r"' (depends on axioms: \[([^\]]*)\]|does not)", r.stdout)
        if k is None:
            failed.append(t + ' (gone)')
        elif k.group(2) and 'sorryAx' in k.group(2):
            failed.append(t)
    return {'broken': broken, 'failed': failed}

def main():
    done = set()
    if os.path.exists(LOG):
        done = {json.loads(l)['id'] for l in open(LOG) if l.strip()}
    for m in json.load(open(sys.argv[1])):
        if m['id'] in done:
            continue
        r = attempt(m)
        print(m['id'], json.dumps(r), flush=True)
        if 'failed' not in r:
            continue
        claim = m['claim'] or ' '.join(sorted({re.search(r'C\d+', t).group() for t in r['failed']}))
        with open(LOG, 'a') as f:
            f.write(json.dumps({'id': m['id'], 'definition': m['definition'], 'edit': m['edit'],
                                'claim': claim, 'theorems_failed': r['failed'],
                                'helper_proofs_broken': sorted(set(r['broken'])),
                                'theorems_tightened': m.get('tightened', [])}) + '\n')

main()

#!/usr/bin/env python3
"""Make a batch of small edits of model definitions for mutate.py.

usage: sweep.py OUT.json FIRST-ID COUNT-PER-DEFINITION [SEED [FILE ...]]

Every definition in the model directories gets up to COUNT edits picked from a
fixed list of operators (comparisons, constants, arithmetic, min/max, Booleans,
list operations, negated conditions).  Edits already in seeded/*.json are left out.
"""
import glob, json, random, re, sys
SRC = '/verif/lean/Verif/'
OPS = [
    (r' < ', ' ≤ ', 'strict comparison made weak'),
    (r' ≤ ', ' < ', 'weak comparison made strict'),
    (r' > ', ' ≥ ', 'strict comparison made weak'),
    (r' ≥ ', ' > ', 'weak comparison made strict'),
    (r' \+ 1\b', '', 'plus one dropped'),
    (r' - 1\b', '', 'minus one dropped'),
    (r' \+ (?=[a-zA-Z(])', ' - ', 'plus turned to minus'),
    (r' - (?=[a-zA-Z(])', ' + ', 'minus turned to plus'),
    (r'\badd64\b', 'sub64', 'addition turned to subtraction'),
    (r'\bsub64\b', 'add64', 'subtraction turned to addition'),
    (r'\bmin\b', 'max', 'min turned to max'),
    (r'\bmax\b', 'min', 'max turned to min'),
    (r'\btrue\b', 'false', 'true turned to false'),
    (r'\bfalse\b', 'true', 'false turned to true'),
    (r' ∧ ', ' ∨ ', 'and turned to or'),
    (r' ∨ ', ' ∧ ', 'or turned to and'),
    (r' && ', ' || ', 'and turned to or'),
    (r' \|\| ', ' && ', 'or turned to and'),
    (r'\.take\b', '.drop', 'take turned to drop'),
    (r'\.drop\b', '.take', 'drop turned to take'),
    (r'\.all\b', '.any', 'all turned to any'),
    (r'\.any\b', '.all', 'any turned to all'),
    (r'\.head\?', '.getLast?', 'first turned to last'),
    (r'\.getLast\?', '.head?', 'last turned to first'),
    (r' % ', ' / ', 'remainder turned to quotient'),
    (r' / ', ' % ', 'quotient turned to remainder'),
    (r' ≠ ', ' = ', 'inequality turned to equality'),
    (r'\bif (\w[\w.]*) then', r'if ¬ \1 then', 'condition negated'),
    (r'\bif ([^\n]*?) = ([^\n]*?) then', r'if \1 ≠ \2 then', 'condition negated'),
    (r'(?<![\w.#^\'])(\d+)(?![\w#.\'])', lambda m: str(int(m.group(1)) + 1), 'constant one larger'),
]
DEF = re.compile(r'^(?:@\[[^\]]*\]\s*)?(?:noncomputable |private |protected )*(def|abbrev)\s+(\S+)', re.M)
END = re.compile(r'^(?:@\[|/-|noncomputable |private |protected |def |abbrev |theorem |lemma |example|structure |inductive |instance|namespace|end|section|variable|open|omit|set_option)', re.M)

def main():
    out, first, count = sys.argv[1], int(sys.argv[2]), int(sys.argv[3])
    rnd = random.Random(int(sys.argv[4]) if len(sys.argv) > 4 else 0)
    files = sys.argv[5:]
    seen = set()
    for b in glob.glob('/verif/seeded/*.json'):
        for e in json.load(open(b)):
            seen.add((e['file'], e['old'], e['new']))
    res = []
    for p in sorted(glob.glob(SRC + '**/*.lean', recursive=True)):
        rel = p[len(SRC):]
        if rel.startswith('Props/') or 'Lemmas' in rel or 'Spec' in rel or rel in ('Basic.lean', 'Arr.lean'):
            continue
        if files and rel not in files:
            continue
        s = open(p).read()
        for m in DEF.finditer(s):
            e = END.search(s, m.end())
            a, b = m.start(), e.start() if e else len(s)
            d = s[a:b]
            k = re.search(r':=|\n\s+\|', d)
            if not k:
                continue
            body = k.end()
            c = []
            for pat, rep, txt in OPS:
                for h in re.finditer(pat, d):
                    if h.start() < body - 1:
                        continue
                    new = d[:h.start()] + h.expand(rep) + d[h.end():] if isinstance(rep, str) else d[:h.start()] + rep(h) + d[h.end():]
                    line = d[:h.start()].count('\n')
                    rest = d[h.start():].split('\n')[0]
                    head = d[:h.end()].split('\n')[-1]
                    if head.lstrip().startswith('|') and '=>' in rest and '=>' not in head:
                        continue  # a pattern
                    c.append((d, new, f'{txt}: {d.split(chr(10))[line].strip()[:100]}'))
            rnd.shuffle(c)
            n = 0
            for old, new, txt in c:
                if n >= count:
                    break
                if s.count(old) != 1 or ('Verif/' + rel, old, new) in seen:
                    continue
                res.append(dict(id=f'S{first:03d}', file='Verif/' + rel, definition=m.group(2), old=old, new=new, edit=txt, claim=''))
                first += 1
                n += 1
    json.dump(res, open(out, 'w'), indent=1, ensure_ascii=False)
    print(len(res), 'edits')

main()

#!/usr/bin/env python3
"""Systematic mutants of the model: one token changed at a time.

usage: automutate.py OUT.jsonl SEED FIRST LAST

The sites are all places in definitions of lean/Verif/Model where an operator of OPS applies, in an order given by SEED; the
mutants FIRST <= k < LAST of that order are built in /tmp/am/mut, from the last commit.  A build is stopped at the first failing theorem.  Mutants that
are not well typed are left out.
"""
import glob, json, os, random, re, shutil, signal, subprocess, sys

SRC, KEEP, DST = '/verif/lean', '/tmp/am/pristine', '/tmp/am/mut'
DECL = re.compile(r'^(?:@\[[^\]]*\]\s*)?(?:private |protected |noncomputable )*(theorem|lemma|def|example|instance|structure|inductive|abbrev)\b\s*([^\s:({\[]*)')
OPS = [(r' < ', ' ≤ '), (r' ≤ ', ' < '), (r' \+ 1\b', ''), (r' - 1\b', ''), (r' \+ ', ' - '), (r' - ', ' + '), (r' && ', ' || '),
       (r' \|\| ', ' && '), (r' ∧ ', ' ∨ '), (r' ∨ ', ' ∧ '), (r'\btrue\b', 'false'), (r'\bfalse\b', 'true'), (r'\bmax\b', 'min'), (r'\bmin\b', 'max'),
       (r'\btake\b', 'drop'), (r'\bdrop\b', 'take'), (r'\.1\b', '.2'), (r'\.2\b', '.1'), (r' = ', ' ≠ '), (r' ≠ ', ' = '),
       (r'\.error \.\w+', '.error .stopIteration'), (r'\bsome \.\w+', 'some .stopIteration'), (r'(?<![\w.])0(?![\w.])', '1'), (r'(?<![\w.])1(?![\w.])', '2'),
       (r'(?<![\w.x])(\d\d+)(?![\w.])', lambda m: str(int(m.group(1)) + 1)), (r'(?<![\w.])([2-9])(?![\w.])', lambda m: str(int(m.group(1)) + 1)),
       (r'\bfilter\b', 'takeWhile'), (r'\ball\b', 'any'), (r'\bany\b', 'all'), (r'\bstrip ', ''), (r'\bif ¬ ', 'if '), (r' \+\+ \[[^\[\]]*\]', ''),
       (r'\bDict\.set (\w+) (\w+) (\w+)\b', lambda m: m.group(1)), (r'\breverse\b', 'id'), (r'\bleft\b', 'right'), (r'\bright\b', 'left'),
       (r'\bhead\?', 'getLast?'), (r'\bgetLast\?', 'head?'), (r'\bIsEmpty\b', 'isSome'), (r' \* ', ' + '), (r' / ', ' * '), (r' % ', ' / ')]


def blank(s):
    """comments and strings replaced by blanks of the same length"""
    out, i, d = list(s), 0, 0
    while i < len(s):
        if s.startswith('/-', i): d += 1; out[i] = out[i + 1] = ' '; i += 2; continue
        if d and s.startswith('-/', i): d -= 1; out[i] = out[i + 1] = ' '; i += 2; continue
        if d:
            if s[i] != '\n': out[i] = ' '
        elif s.startswith('--', i):
            while i < len(s) and s[i] != '\n': out[i] = ' '; i += 1
            continue
        elif s[i] == '"':
            j = s.index('"', i + 1)
            for k in range(i, j + 1): out[k] = ' '
            i = j
        i += 1
    return ''.join(out)


def sites():
    res = []
    for f in sorted(glob.glob(f'{KEEP}/Verif/Model/*.lean')):
        s = open(f).read(); b = blank(s)
        cur, kind, pos, body = '', '', 0, False
        for line in b.split('\n'):
            m = DECL.match(line)
            if m: kind, cur, body = m.group(1), m.group(2), False
            elif line and not line[0].isspace() and not line.startswith('|'): kind = ''
            if kind == 'def':
                lo = 0
                if not body:
                    k = line.find(':=')
                    if k >= 0: lo, body = k + 2, True
                    elif re.match(r'\s*\|', line) or line.endswith('where'): lo, body = 0 if '|' in line else len(line), True
                    else: lo = len(line)
                for op, rep in OPS:
                    for x in re.finditer(op, line):
                        if x.start() < lo: continue
                        if op == r' = ' and 'let' in line[:x.start()] and ':=' not in line: continue
                        new = rep(x) if callable(rep) else rep
                        res.append((f[len(KEEP) + 7:], cur, pos + x.start(), pos + x.end(), x.group(0), new))
            pos += len(line) + 1
    return res


def build():
    p = subprocess.Popen(['lake', 'build'], cwd=DST, stdout=subprocess.PIPE, stderr=subprocess.STDOUT, text=True, start_new_session=True)
    exs, verdict = [], None
    for line in p.stdout:
        m = re.match(r'error: (Verif/[\w/]+\.lean):(\d+):\d+', line)
        if m:
            lines = open(f'{DST}/{m.group(1)}').read().split('\n')
            kind = name = '?'
            for i in range(int(m.group(2)) - 1, -1, -1):
                d = DECL.match(lines[i])
                if d: kind, name = d.group(1), d.group(2) or f'line {i + 1}'; break
            tag = f'{m.group(1)[6:-5]}:{name}'
            if kind == 'example': exs.append(tag); continue
            verdict = ('caught', tag) if kind in ('theorem', 'lemma') else ('ill typed', tag) if '/Model/' in m.group(1) else ('caught', tag)
            break
        if 'exited with code 137' in line: verdict = ('caught', 'out of memory'); break
    if verdict:
        try: os.killpg(p.pid, signal.SIGKILL)
        except ProcessLookupError: pass
    p.wait()
    return verdict or (('caught', '?') if p.returncode and not exs else ('survived', '')), exs


def main():
    out, seed, a, b = sys.argv[1], int(sys.argv[2]), int(sys.argv[3]), int(sys.argv[4])
    uses = json.load(open('/tmp/am/uses.json'))
    if not os.path.exists(KEEP):
        shutil.copytree(SRC, KEEP, symlinks=True)
        shutil.rmtree(f'{KEEP}/Verif')
        subprocess.run(f'git -C {SRC} archive HEAD Verif Verif.lean | tar x -C {KEEP}', shell=True, check=True)
        subprocess.run(['lake', 'build'], cwd=KEEP, check=True, stdout=subprocess.DEVNULL)
    ss = sites()
    random.Random(seed).shuffle(ss)
    print(len(ss), 'sites', flush=True)
    for k in range(a, min(b, len(ss))):
        f, d, lo, hi, old, new = ss[k]
        if os.path.exists(DST): shutil.rmtree(DST)
        shutil.copytree(KEEP, DST, symlinks=True, copy_function=shutil.copy2)
        path = f'{DST}/Verif/{f}'
        s = open(path).read()
        open(path, 'w').write(s[:lo] + new + s[hi:])
        i = s.rfind('\n', 0, lo) + 1; j = s.find('\n', hi)
        text = f'{s[i:j].strip()}  =>  {(s[i:lo] + new + s[hi:j]).strip()}'
        (verdict, tag), exs = build()
        print(k, verdict, f, d, '|', text, '|', tag, exs[:2], flush=True)
        if verdict == 'ill typed': continue
        claims = sorted({c for n, cs in uses.items() if n == 'Verif.' + d or n.endswith('.' + d) for c in cs})
        rec = {'definition': d, 'edit': text, 'claim_broken': ', '.join(claims), 'theorems_failed': [tag] if tag else [], 'examples_failed': exs,
               'tightened': [], 'outcome': verdict, 'generated': True}
        open(out, 'a').write(json.dumps(rec, ensure_ascii=False) + '\n')


main()

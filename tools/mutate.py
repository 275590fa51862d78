#!/usr/bin/env python3
"""Seed bugs into a scratch copy of the Lean model and see which theorems notice.

usage: mutate.py ROUND.json OUT.jsonl [first [last]]

Every entry of ROUND.json has file, definition, old, new, edit, breaks, and optionally the targets to build.  The copy lives in /tmp/mut; /verif is only read.
"""
import json, os, re, shutil, subprocess, sys

SRC, DST, KEEP = '/verif/lean', '/tmp/mut', '/tmp/mut-pristine'
DECL = re.compile(r'^(?:@\[[^\]]*\]\s*)?(?:private |protected |noncomputable )*(theorem|lemma|def|example|instance|structure|inductive|abbrev)\b\s*([^\s:({\[]*)')


def sync():
    if not os.path.exists(KEEP):
        shutil.copytree(SRC, KEEP, symlinks=True)
        subprocess.run(['lake', 'build'], cwd=KEEP, check=True, stdout=subprocess.DEVNULL)
    if os.path.exists(DST):
        shutil.rmtree(DST)
    shutil.copytree(KEEP, DST, symlinks=True, copy_function=shutil.copy2)


def decl_at(lines, n):
    for i in range(n - 1, -1, -1):
        m = DECL.match(lines[i])
        if m:
            return (m.group(1), m.group(2) or f'line {i + 1}')
    return ('?', '?')


def main():
    muts = json.load(open(sys.argv[1]))
    out = sys.argv[2]
    a = int(sys.argv[3]) if len(sys.argv) > 3 else 0
    b = int(sys.argv[4]) if len(sys.argv) > 4 else len(muts)
    for k in range(a, b):
        m = muts[k]
        sync()
        path = f'{DST}/Verif/{m["file"]}'
        s = open(path).read()
        if s.count(m['old']) != 1:
            print(k, 'PATTERN COUNT', s.count(m['old']), m['definition']); continue
        open(path, 'w').write(s.replace(m['old'], m['new']))
        r = subprocess.run(['lake', 'build'] + m.get('targets', []), cwd=DST, stdout=subprocess.PIPE, stderr=subprocess.STDOUT, text=True)
        thms, exs, others, raw = [], [], [], []
        for f, n in re.findall(r'error: (Verif/[\w/]+\.lean):(\d+):\d+', r.stdout):
            kind, name = decl_at(open(f'{DST}/{f}').read().split('\n'), int(n))
            tag = f'{f[6:-5]}:{name}'
            tgt = exs if kind == 'example' else thms if kind in ('theorem', 'lemma') else others
            if tag not in tgt: tgt.append(tag)
        for f in re.findall(r'Building Verif\.([\w.]+) .*\n(?:.*\n)*?error: Lean exited with code 137', r.stdout):
            thms.append(f.replace('.', '/') + ':(runs out of memory)')
        if r.returncode != 0 and not (thms or exs or others):
            print(k, 'BUILD INTERRUPTED', m['definition'], flush=True); continue
        line = {'definition': m['definition'], 'edit': m['edit'], 'claim_broken': m['breaks'],
                'theorems_failed': thms, 'examples_failed': exs, 'tightened': m.get('tightened', [])}
        if others: line['other_declarations_failed'] = others
        line['outcome'] = 'caught' if thms else 'survived'
        open(out, 'a').write(json.dumps(line, ensure_ascii=False) + '\n')
        print(k, line['outcome'], m['definition'], '|', m['edit'], '|', thms[:6], 'ex', exs[:3], 'oth', others[:3], flush=True)


main()

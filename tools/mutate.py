#!/usr/bin/env python3
"""Mutation tests of the theorems, in a scratch copy outside /verif.

usage: mutate.py LIST.json [first [last]]

LIST.json holds objects {file, old, new, definition, edit, claim, expect}. Each edit is applied to a
copy of the Lean project. Theorems whose proof fails are replaced by `sorry` and the build is repeated
until it passes; then every property theorem that depends on `sorryAx` counts as failed. A line is
appended to seeded/LOG.jsonl. `expect` lists the properties whose claim the edit breaks.
"""
import json, os, re, shutil, subprocess, sys
from mutate_lib import decl_at

SRC = '/verif/lean'
BASE = '/root/mut/base'
WORK = '/root/mut/work'
LOG = '/verif/seeded/LOG.jsonl'


def sorry_text(text):
    depth = 0
    i = 0
    while i < len(text):
        c = text[i]
        if c in '([{⟨':
            depth += 1
        elif c in ')]}⟩':
            depth -= 1
        elif depth == 0 and text.startswith(':=', i):
            bol = text.rfind('\n', 0, i) + 1
            if not re.search(r'\blet\b', text[bol:i]):
                return text[:i] + ':= sorry\n'
        i += 1
    m = re.search(r':= by\b|:=\n', text)
    if m:
        return text[:m.start()] + ':= sorry\n'
    m = re.search(r'\n\s*\| ', text)
    return text[:m.start()] + ' := sorry\n'


def run(entry):
    if os.path.exists(WORK):
        shutil.rmtree(WORK)
    subprocess.run(['cp', '-a', BASE, WORK], check=True)
    path = os.path.join(WORK, 'Verif', entry['file'])
    s = open(path).read()
    assert s.count(entry['old']) == 1, (s.count(entry['old']), entry['old'])
    open(path, 'w').write(s.replace(entry['old'], entry['new']))
    failed = []
    for _ in range(25):
        p = subprocess.run(['lake', 'build'], cwd=WORK, capture_output=True, text=True, timeout=5400)
        out = p.stdout + p.stderr
        if p.returncode == 0:
            break
        errs = {}
        for m in re.finditer(r'^error: (Verif/\S+\.lean):(\d+):\d+:', out, re.M):
            errs.setdefault(m.group(1), set()).add(int(m.group(2)) - 1)
        if not errs:
            return None, 'no error position: ' + out[-500:]
        for f, ls in errs.items():
            fp = os.path.join(WORK, f)
            lines = open(fp).read().split('\n')
            ranges = set()
            for l in ls:
                d = decl_at(lines, l)
                if d is None:
                    return None, 'error outside a theorem: %s:%d' % (f, l + 1)
                ranges.add(d)
            for s0, e0, name in sorted(ranges, reverse=True):
                failed.append(name)
                lines[s0:e0] = sorry_text('\n'.join(lines[s0:e0])).split('\n')
            open(fp, 'w').write('\n'.join(lines))
    else:
        return None, 'did not settle: ' + ', '.join(failed)
    names = []
    for root, _, files in os.walk(os.path.join(WORK, 'Verif/Props')):
        for f in files:
            ns = ''
            for m in re.finditer(r'^(?:namespace (\S+)|theorem (C\d\d\d?_\w+))', open(os.path.join(root, f)).read(), re.M):
                if m.group(1):
                    ns = m.group(1) if m.group(1).startswith('Sawatabi') else 'Sawatabi.' + m.group(1)
                else:
                    names.append(ns + '.' + m.group(2))
    chk = os.path.join(WORK, 'Chk.lean')
    open(chk, 'w').write('import Verif\n' + ''.join('#print axioms %s\n' % n for n in sorted(names)))
    p = subprocess.run(['lake', 'env', 'lean', 'Chk.lean'], cwd=WORK, capture_output=True, text=True)
    if p.returncode != 0:
        return None, 'axioms not printed: ' + p.stdout[:500]
    bad = [m.group(1) for m in re.finditer(r"'Sawatabi\.(?:\w+\.)*(\w+)' depends on axioms: \[([^\]]*)\]", p.stdout)
           if 'sorryAx' in m.group(2)]
    return failed, bad


def main():
    muts = json.load(open(sys.argv[1]))
    a = int(sys.argv[2]) if len(sys.argv) > 2 else 0
    b = int(sys.argv[3]) if len(sys.argv) > 3 else len(muts)
    if not os.path.exists(BASE) or os.environ.get('REBASE'):
        subprocess.run(['rm', '-rf', BASE])
        subprocess.run(['cp', '-a', SRC, BASE], check=True)
    for k in range(a, min(b, len(muts))):
        e = muts[k]
        try:
            failed, bad = run(e)
        except Exception as ex:  # noqa
            failed, bad = None, repr(ex)
        if failed is None:
            print(k, 'INVALID', e['definition'], e['edit'], bad, flush=True)
            continue
        props = sorted({n.split('_')[0] for n in bad})
        missed = [p for p in e['expect'] if p not in props]
        print(k, 'SURVIVED' if missed else 'killed', e['definition'], '|', e['edit'], '|', missed, '|', props, flush=True)
        rec = {'definition': e['definition'], 'edit': e['edit'], 'claim': e['claim'], 'expected': e['expect'],
               'failed': bad, 'failed_proofs': failed, 'survived': missed, 'tightened': e.get('tightened', [])}
        open(LOG, 'a').write(json.dumps(rec, ensure_ascii=False) + '\n')


main()

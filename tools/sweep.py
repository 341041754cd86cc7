#!/usr/bin/env python3
"""Mechanical mutation tests, in a scratch copy outside /verif.

usage: sweep.py list SEED COUNT OUT.json   write a random list of edits of single lines of the model
       sweep.py run LIST.json [first]      try each edit

An edit swaps an operator, changes a number, negates a condition or drops a statement. The build stops at
the first theorem (not example) that fails. Edits that leave all theorems intact are printed as SURVIVED.
A line is appended to seeded/LOG.jsonl for each edit that compiles.
"""
import json, os, random, re, shutil, signal, subprocess, sys
from mutate_lib import decl_at

SRC = '/verif/lean'
BASE = '/root/sweep/base'
WORK = '/root/sweep/work'
LOG = '/verif/seeded/LOG.jsonl'
RULES = [
    (r' ≤ ', ' < ', 'boundary'), (r' < ', ' ≤ ', 'boundary'), (r' ≥ ', ' > ', 'boundary'), (r' > ', ' ≥ ', 'boundary'),
    (r' \+ ', ' - ', 'sign'), (r' - ', ' + ', 'sign'), (r' \* ', ' + ', 'sum for product'), (r' / ', ' * ', 'product for quotient'),
    (r' ∧ ', ' ∨ ', 'or for and'), (r' ∨ ', ' ∧ ', 'and for or'), (r' && ', ' || ', 'or for and'), (r' \|\| ', ' && ', 'and for or'),
    (r' = ', ' ≠ ', 'negated'), (r' ≠ ', ' = ', 'negated'), (r' == ', ' != ', 'negated'), (r' != ', ' == ', 'negated'),
    (r' ∈ ', ' ∉ ', 'negated'), (r' ∉ ', ' ∈ ', 'negated'), (r'\bif !', 'if ', 'negated'), (r'\(!·', '(·', 'negated'),
    (r'\btrue\b', 'false', 'other flag'), (r'\bfalse\b', 'true', 'other flag'),
    (r'\.any\b', '.all', 'all for any'), (r'\.all\b', '.any', 'any for all'), (r'\b\.1\b', '.2', 'other part'), (r'\b\.2\b', '.1', 'other part'),
    (r'\b0\b', '1', 'other number'), (r'\b1\b', '2', 'other number'), (r'\b2\b', '1', 'other number'),
    (r'\.ising\b', '.qubo', 'other type'), (r'\.qubo\b', '.ising', 'other type'), (r'valueError', 'typeError', 'other error'),
    (r'typeError', 'valueError', 'other error'), (r'keyError', 'valueError', 'other error'), (r'\.filter\b', '.takeWhile', 'stops early'),
    (r'\.foldl\b', '.foldr', 'order'), (r'\.reverse\b', '', 'order'), (r'\.dropLast\b', '', 'one too many'), (r'\.tail\b', '', 'one too many'),
    (r'"([^"]+)"', r'"\1!"', 'other text'),
]


def code_lines(text):
    """Numbers of the lines of definitions, with the name of the definition."""
    out, name, comment = [], None, False
    for i, l in enumerate(text.split('\n')):
        s = l.strip()
        if comment:
            if '-/' in s:
                comment = False
            continue
        if s.startswith(('/-', '/--', '/-!')):
            comment = '-/' not in s
            continue
        m = re.match(r'^(?:@\[[^\]]*\]\s*)?(?:noncomputable )?(def|abbrev|instance|structure|inductive|theorem|namespace|end|open|variable|import|example|macro|syntax)\b\s*(\S*)', l)
        if m:
            name = m.group(2) if m.group(1) in ('def', 'abbrev') else None
        if name and s and not s.startswith('--'):
            out.append((i, name))
    return out


def edits():
    res = []
    for f in sorted(os.listdir(SRC + '/Verif/Model')):
        text = open(SRC + '/Verif/Model/' + f).read()
        lines = text.split('\n')
        for i, name in code_lines(text):
            l = lines[i]
            body = l
            start = 0
            if re.match(r'^(?:@\[[^\]]*\]\s*)?(def|abbrev)\b', l):
                k = l.find(':=')
                if k < 0:
                    continue
                start = k + 2
            for pat, rep, what in RULES:
                for m in re.finditer(pat, body):
                    if m.start() < start:
                        continue
                    new = l[:m.start()] + m.expand(rep) + l[m.end():]
                    res.append((f, i, name, what, new))
            ind = len(l) - len(l.lstrip())
            s = l.strip()
            nxt = lines[i + 1] if i + 1 < len(lines) else ''
            nind = len(nxt) - len(nxt.lstrip())
            if ind >= 2 and (not nxt.strip() or nind <= ind) and not s.startswith(('|', 'let', 'else', 'then', 'match', 'where', 'with')):
                prev = lines[i - 1].strip()
                if prev.endswith('do') or not prev.endswith((':=', '=>', 'then', 'else', ',', '(', '∧', '++', 'with')):
                    res.append((f, i, name, 'statement dropped', None))
    return res


def make(seed, count, out):
    random.seed(seed)
    es = edits()
    seen, pick = {}, []
    random.shuffle(es)
    # at most one edit of a line, and not too many of one definition
    per = {}
    for f, i, name, what, new in es:
        if (f, i) in seen or per.get((f, name), 0) >= 4:
            continue
        seen[(f, i)] = 1
        per[(f, name)] = per.get((f, name), 0) + 1
        pick.append({'file': f, 'line': i, 'definition': name, 'edit': what, 'new': new,
                     'old': open(SRC + '/Verif/Model/' + f).read().split('\n')[i]})
    print(len(es), 'edits,', len(pick), 'picked')
    json.dump(pick[:count], open(out, 'w'), ensure_ascii=False, indent=0)


def attempt(e):
    shutil.rmtree(WORK, ignore_errors=True)
    subprocess.run(['cp', '-a', BASE, WORK], check=True)
    path = WORK + '/Verif/Model/' + e['file']
    lines = open(path).read().split('\n')
    assert lines[e['line']] == e['old']
    if e['new'] is None:
        del lines[e['line']]
    else:
        lines[e['line']] = e['new']
    os.remove(path)
    open(path, 'w').write('\n'.join(lines))
    p = subprocess.Popen(['lake', 'build'], cwd=WORK, stdout=subprocess.PIPE, stderr=subprocess.STDOUT, text=True, start_new_session=True)
    examples = []

    def stop():
        try:
            os.killpg(p.pid, signal.SIGKILL)
        except ProcessLookupError:
            pass
        p.wait()
    for l in p.stdout:
        m = re.match(r'^error: (Verif/\S+\.lean):(\d+):\d+:', l)
        if not m:
            continue
        if m.group(1).startswith('Verif/Model/'):
            stop()
            return 'INVALID', m.group(0)
        src = open(WORK + '/' + m.group(1)).read().split('\n')
        d = decl_at(src, int(m.group(2)) - 1)
        if d is None:
            stop()
            return 'killed', [m.group(1) + ':' + m.group(2)]
        if d[2].startswith('example@'):
            examples.append(m.group(1) + ' ' + d[2])
            continue
        stop()
        return 'killed', [d[2]]
    p.wait()
    if p.returncode == 0 or examples:
        return 'SURVIVED', examples
    return 'INVALID', 'no error position'


def run(path, first):
    es = json.load(open(path))
    if os.environ.get('REBASE') or not os.path.exists(BASE):
        shutil.rmtree(BASE, ignore_errors=True)
        subprocess.run(['cp', '-a', SRC, BASE], check=True)
    for k in range(first, len(es)):
        e = es[k]
        try:
            res, what = attempt(e)
        except Exception as ex:  # noqa
            res, what = 'INVALID', repr(ex)
        print(k, res, e['file'], e['line'] + 1, e['definition'], '|', e['edit'], '|', e['old'].strip(), '=>', (e['new'] or '').strip(), '|', what, flush=True)
        if res == 'INVALID':
            continue
        rec = {'definition': e['definition'], 'edit': '%s: `%s` => `%s`' % (e['edit'], e['old'].strip(), (e['new'] or '').strip()),
               'claim': 'mechanical edit', 'failed_first': what if res == 'killed' else [], 'survived': res == 'SURVIVED', 'tightened': []}
        open(LOG, 'a').write(json.dumps(rec, ensure_ascii=False) + '\n')


if sys.argv[1] == 'list':
    make(int(sys.argv[2]), int(sys.argv[3]), sys.argv[4])
else:
    run(sys.argv[2], int(sys.argv[3]) if len(sys.argv) > 3 else 0)

"""Shared by mutate.py and sweep.py."""
import re

HEAD = re.compile(r'^(?:@\[[^\]]*\]\s*)?(?:private\s+)?(theorem|lemma|example)\b\s*([^\s:({\[]*)')


def decl_at(lines, n):
    """Range and name of the theorem that contains line n (0-based)."""
    s = n
    while s >= 0 and not HEAD.match(lines[s]):
        if s != n and lines[s] and not lines[s][0].isspace() and not lines[s].startswith(('|', '--')):
            if re.match(r'^(def|instance|abbrev|structure|inductive|noncomputable|macro)', lines[s]):
                return None
        s -= 1
    if s < 0:
        return None
    e = s + 1
    while e < len(lines) and not (lines[e] and not lines[e][0].isspace()):
        e += 1
    return s, e, HEAD.match(lines[s]).group(2) or ('example@%d' % (s + 1))

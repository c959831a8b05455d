#!/usr/bin/env python3
"""Writes lean/Verif/Model/Hyph*.lean, the embedded pattern files of /repo/wordbreak/hyphenator/languages
as packed bytes.  Pieces end at the end of a line; lines that start with a backslash, % or } and all lines
after the patterns are in pieces of their own."""
import os
HERE = os.path.dirname(os.path.abspath(__file__))
OUT = os.path.join(HERE, '..', 'lean', 'Verif', 'Model')
SRC = '/repo/wordbreak/hyphenator/languages/'
SIZE = 1500
FILES = [('HyphUS', 'usFile', 'ushyphmax.tex'), ('HyphGB', 'gbFile', 'hyph-en-gb.tex'),
         ('HyphES', 'esFile', 'hyph-es.tex'), ('HyphFR', 'frFile', 'hyph-fr.tex'),
         ('HyphDE', 'deFile', 'hyph-de-1996.tex')]

def pieces(data):
    lines = data.split(b'\n')
    assert lines[-1] == b''
    lines = [l + b'\n' for l in lines[:-1]]
    i = 0
    while lines[i][:1] in b'\\%':
        i += 1
    j = next(k for k in range(i, len(lines)) if lines[k][:1] == b'}')
    head, body, tail = lines[:i], lines[i:j], lines[j:]
    out, cur = [], b''
    for l in body:
        cur += l
        if len(cur) >= SIZE:
            out.append(cur)
            cur = b''
    if cur:
        out.append(cur)
    return b''.join(head), out, b''.join(tail)

for mod, name, f in FILES:
    data = open(SRC + f, 'rb').read()
    head, body, tail = pieces(data)
    assert head + b''.join(body) + tail == data
    n = data.count(b'\n')
    s = ['import Verif.Model.Packed', '',
         f'/-! # The bytes of `wordbreak/hyphenator/languages/{f}`', '',
         'Generated by tools/gen_patterns.py. -/', '', 'namespace Verif.Model', '']
    def lit(b):
        return f'({len(b)}, 0x{b.hex()})'
    s.append(f'/-- {f}:1-{head.count(10)}, what comes before the patterns. -/')
    s.append(f'def {name}Head : Nat × Nat := {lit(head)}')
    s.append('')
    line = head.count(10) + 1
    for i, b in enumerate(body):
        k = b.count(b'\n')
        s.append(f'/-- {f}:{line}-{line + k - 1} -/')
        s.append(f'def {name}{i} : Nat × Nat := {lit(b)}')
        line += k
    s.append('')
    s.append(f'/-- {f}:{head.count(10) + 1}-{line - 1}, the patterns. -/')
    row, rows = '', []
    for i in range(len(body)):
        w = f'{name}{i}' + (', ' if i + 1 < len(body) else '')
        if len(row) + len(w) > 96:
            rows.append(row.rstrip()); row = ''
        row += w
    rows.append(row)
    s.append(f'def {name}Body : List (Nat × Nat) :=\n  [' + '\n   '.join(rows) + ']')
    s.append('')
    s.append(f'/-- {f}:{line}-{n}, what comes after the patterns. -/')
    s.append(f'def {name}Tail : Nat × Nat := {lit(tail)}')
    s.append('')
    s.append(f'/-- The file {f}. -/')
    s.append(f'def {name} : List (Nat × Nat) := {name}Head :: ({name}Body ++ [{name}Tail])')
    s.append('')
    s.append('end Verif.Model')
    open(os.path.join(OUT, mod + '.lean'), 'w').write('\n'.join(s) + '\n')

#!/usr/bin/env python3
"""Generates lean/Verif/Model/Tables.lean from /repo/terminal/runes."""
import os, re
root = os.path.dirname(os.path.dirname(os.path.abspath(__file__)))
src = open('/repo/terminal/runes/runes_tables.go').read()
out = ["import Verif.Go.Basic", "",
       "/-! # The range tables of `terminal/runes` (generated from the source by tools/tables.py)", "",
       "`neutral` is used by no code, except by the program that writes the file. -/", "",
       "namespace Verif.Model", "open Verif.Go", ""]
def emit(name, body, cite):
    iv = re.findall(r'\{0x([0-9A-F]+), 0x([0-9A-F]+)\}', body)
    out.append(f"/-- Table `{name}` ({cite}). -/")
    out.append(f"def {name} : List (Rune × Rune) := [")
    rows = [", ".join(f"(0x{a}, 0x{b})" for a, b in iv[i:i+4]) for i in range(0, len(iv), 4)]
    out.append(",\n".join("  " + r for r in rows) + "]\n")
for name in ["combining", "doublewidth", "ambiguous", "narrow", "neutral", "emoji"]:
    m = re.search(r'var ' + name + r' = table\{(.*?)\n\}', src, re.S)
    a = src[:m.start()].count('\n') + 1
    b = src[:m.end()].count('\n') + 1
    emit(name, m.group(1), f"terminal/runes/runes_tables.go:{a}-{b}")
lk = open('/repo/terminal/runes/lookup.go').read()
m = re.search(r'nonprint = table\{(.*?)\n\t\}', lk, re.S)
emit("nonprint", m.group(1), "terminal/runes/lookup.go:17-22")
out.append("end Verif.Model")
open(os.path.join(root, 'lean/Verif/Model/Tables.lean'), 'w').write("\n".join(out) + "\n")

data = open('/repo/terminal/runes/runes_tables.go', 'rb').read()
lines = [l + b'\n' for l in data.split(b'\n')[:-1]]
assert b''.join(lines) == data
file = ["import Verif.Model.Packed", "",
        "/-! # The bytes of `terminal/runes/runes_tables.go` (generated by tools/tables.py) -/", "",
        "namespace Verif.Model", ""]
names, k = [], 0
while k < len(lines):
    j = min(k + 25, len(lines))
    b = b''.join(lines[k:j])
    names.append(f"tablesFile{len(names)}")
    file.append(f"/-- runes_tables.go:{k + 1}-{j} -/")
    file.append(f"def {names[-1]} : Nat × Nat := ({len(b)}, 0x{b.hex()})")
    k = j
file.append("")
file.append(f"/-- The file terminal/runes/runes_tables.go:1-{len(lines)}. -/")
rows = [", ".join(names[i:i+6]) for i in range(0, len(names), 6)]
file.append("def tablesFile : List (Nat × Nat) := [\n  " + ",\n  ".join(rows) + "]")
file += ["", "end Verif.Model"]
open(os.path.join(root, 'lean/Verif/Model/TablesFile.lean'), 'w').write("\n".join(file) + "\n")

#!/usr/bin/env python3
"""Writes lean/Verif/Gen/Templates.lean from the template files of the repository."""
import os, sys

REPO = sys.argv[1] if len(sys.argv) > 1 else "/repo"
GEN = os.path.join(REPO, "compiler/src/gen")
OUT = os.path.join(os.path.dirname(os.path.abspath(__file__)), "../lean/Verif/Gen/Templates.lean")
FILES = [
    ("rustEnum", "rust/enum.template"),
    ("rustStructure", "rust/structure.template"),
    ("rustStructureField", "rust/structure.field.template"),
    ("rustUnion", "rust/union.template"),
    ("rustMessage", "rust/message.template"),
    ("rustMessageExt", "rust/message.ext.template"),
    ("rustMessageFromSlice", "rust/message.from_slice.template"),
    ("rustMessageWrite", "rust/message.write.template"),
    ("rustMessageOffsets", "rust/message.offsets.template"),
    ("swiftStructure", "swift/structure.template"),
    ("swiftStructureField", "swift/structure.field.template"),
]

HEAD = '''import Verif.Base.Lit

/-!
# The template files of the two code generators

The text of each file, byte for byte (written by `tools/templates.py`).
-/

namespace Proto.Tmpl
'''

out = [HEAD]
for name, path in FILES:
    text = open(os.path.join(GEN, path), "rb").read().decode("utf-8")
    assert "\r" not in text
    n = len(text.splitlines())
    lit = text.replace("\\", "\\\\").replace('"', '\\"')
    out.append('/-- `compiler/src/gen/%s` 1-%d. -/\ndef %s : Bytes := b!"%s"\n' % (path, n, name, lit))
out.append("end Proto.Tmpl\n")
open(OUT, "w").write("\n".join(out))

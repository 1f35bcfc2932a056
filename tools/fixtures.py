#!/usr/bin/env python3
"""Transcribe the schemas of /repo/testprog/src into lean/Verif/Fixtures/Schemas.lean."""
import json, re, sys, pathlib

SRC = pathlib.Path("/repo/testprog/src")
OUT = pathlib.Path(__file__).resolve().parent.parent / "lean/Verif/Fixtures/Schemas.lean"
FILES = ["test", "structs", "bits", "bits2", "views", "struct_arrays", "enums", "values", "unions2",
         "arrays", "unions", "lists"]


def read(name):
    text = (SRC / f"{name}.json5").read_text()
    text = re.sub(r"//[^\n]*", "", text)
    text = re.sub(r"([{,]\s*)([A-Za-z_]\w*)\s*:", r'\1"\2":', text)
    text = re.sub(r",(\s*[}\]])", r"\1", text)
    return json.loads(text, object_pairs_hook=lambda ps: ("obj", ps)), text.count("\n") + 1


def s(x):
    return f'"{x}".toList'


def num(x):
    if isinstance(x, float):
        from fractions import Fraction
        f = Fraction(str(x))
        return f"({f.numerator} / {f.denominator})"
    return str(x)


def js(v, ind):
    pad = " " * ind
    if isinstance(v, tuple):
        body = f",\n{pad}  ".join(f"({s(k)}, {js(x, ind + 2)})" for k, x in v[1])
        flat = ", ".join(f"({s(k)}, {js(x, 0)})" for k, x in v[1])
        if "\n" not in flat and len(flat) + ind < 84:
            return f".obj [{flat}]"
        return f".obj [\n{pad}  {body}]"
    if isinstance(v, list):
        body = f",\n{pad}  ".join(js(x, ind + 2) for x in v)
        return f".arr [\n{pad}  {body}]"
    if isinstance(v, bool):
        return f".bool {str(v).lower()}"
    if isinstance(v, str):
        return f".str {s(v)}"
    return f".num {num(v)}"


def d(v):
    return dict(v[1])


def opt(v, k, f=lambda x: x):
    return f"some {f(v[k])}" if k in v else "none"


def ty(v):
    v = d(v)
    if v["type"] == "struct":
        return f".struct {s(v['item_type'])}"
    return f".{v['type']} {v['bits']}"


def view(v):
    v = d(v)
    if v["type"] == "enum":
        return f"(.enum {s(v['name'])})"
    if v["type"] == "float-range":
        return f"(.floatRange {num(v['min'])} {num(v['max'])})"
    return f"(.floatMultiplier {num(v['multiplier'])})"


def sfield(v):
    v = d(v)
    return f"⟨{s(v['name'])}, {ty(v['info'])}, {opt(v, 'view', view)}, {opt(v, 'array_len')}⟩"


def mty(v):
    v = d(v)
    t = v["type"]
    if t == "item":
        return f".item {s(v['item_type'])}"
    if t == "list":
        return f".list {v['max_len']} {s(v['item_type'])}"
    if t == "string":
        x = opt(v, "max_len")
        return f".string {x if x == 'none' else '(' + x + ')'}"
    if t == "union":
        return f".union {s(v['on'])} {s(v['item_type'])}"
    return ".payload"


def mfield(v):
    v = d(v)
    return f"⟨{s(v['name'])}, {mty(v['info'])}, {opt(v, 'optional', lambda b: str(b).lower())}⟩"


def items(xs, f, ind):
    pad = " " * ind
    return f"[\n{pad}" + f",\n{pad}".join(f(x) for x in xs) + "]"


def struct(v):
    v = d(v)
    return f"⟨{s(v['name'])}, {items(v['fields'], sfield, 6)}⟩"


def message(v):
    v = d(v)
    return f"⟨{s(v['name'])}, {items(v['fields'], mfield, 6)}⟩"


def enum(v):
    v = d(v)
    return f"⟨{s(v['name'])}, {items(v['variants'][1], lambda e: f'({s(e[0])}, {e[1]})', 6)}⟩"


def ucase(v):
    v = d(v)
    return f"⟨{s(v['name'])}, {s(v['case'])}, {opt(v, 'item_type', s)}⟩"


def union(v):
    v = d(v)
    return f"⟨{s(v['name'])}, {s(v['discriminant'])}, {items(v['cases'], ucase, 6)}⟩"


def imp(v):
    v = d(v)
    return f"⟨{s(v['protocol'])}, {s(v['type'])}⟩"


def camel(n):
    a = n.split("_")
    return a[0] + "".join(x.capitalize() for x in a[1:])


def model(v):
    v = d(v)
    out = [f"  name := {s(v['name'])}"]
    if "endianness" in v:
        out.append(f"  endianness := some .{v['endianness']}")
    for k, f in [("imports", imp), ("structs", struct), ("messages", message), ("enums", enum),
                 ("unions", union)]:
        if k in v:
            out.append(f"  {k} := {items(v[k], f, 4)}")
    return "\n".join(out)


def main():
    o = ["import Verif.Compiler.Input", "",
         "/-!", "# The schemas of `testprog/src`", "",
         "Written by `tools/fixtures.py` from the files; the syntax of JSON5 (comments, unquoted names,",
         "trailing commas) is not modelled.  For each file: the JSON value, and the model it describes.",
         "-/", "", "namespace Proto.Fix", "", "open Proto.Input", ""]
    for f in FILES:
        v, n = read(f)
        c = camel(f)
        o += [f"/-- `testprog/src/{f}.json5` 1-{n}. -/", f"def {c}Json : Json :=", f"  {js(v, 2)}", "",
              f"/-- What `testprog/src/{f}.json5` describes. -/", f"def {c}M : Model.Protocol where",
              model(v), ""]
    o += ["end Proto.Fix", ""]
    OUT.write_text("\n".join(o))


if __name__ == "__main__":
    main()

#!/usr/bin/env python3
"""Write MANIFEST.json: status by hand below, theorem names collected from lean/Verif/Props by their Cnn_ prefix."""
import json, pathlib, re
root = pathlib.Path(__file__).resolve().parent.parent
NOTES = json.loads((root / "tools" / "status.json").read_text())
props = [json.loads(l)["id"] for l in (root / "properties.jsonl").read_text().splitlines() if l.strip()]
thms = {p: [] for p in props}
for f in sorted((root / "lean/Verif/Props").rglob("*.lean")):
    ns = []
    for line in f.read_text().splitlines():
        m = re.match(r"namespace\s+(\S+)", line)
        if m: ns.append(m.group(1))
        m = re.match(r"end\s+(\S+)", line)
        if m and ns and ns[-1] == m.group(1): ns.pop()
        m = re.match(r"(?:@\[[^\]]*\]\s*)?(?:private\s+)?theorem\s+(C(\d\d+)_\S+)", line)
        if m and "C" + m.group(2) in thms:
            thms["C" + m.group(2)].append(".".join(ns + [m.group(1)]))
claims = []
for p in props:
    st = NOTES.get(p)
    if st is None and not thms[p]: continue
    st = st or {"status": "proved", "note": ""}
    claims.append({"property": p, "status": st["status"], "theorems": thms[p], "note": st["note"]})
(root / "MANIFEST.json").write_text(json.dumps({"claims": claims}, indent=1, ensure_ascii=False) + "\n")
allt = [t for p in props for t in thms[p]]
mods = sorted(str(f.relative_to(root/"lean").with_suffix("")).replace("/", ".") for f in (root/"lean/Verif/Props").rglob("*.lean"))
aud = "".join(f"import {m}\n" for m in mods) + "\n/-! Axioms of every property theorem (generated by tools/gen_manifest.py). -/\n\n" + "".join(f"#print axioms {t}\n" for t in allt)
(root / "lean/Verif/Audit.lean").write_text(aud)
(root / "lean/Verif.lean").write_text("".join(f"import {m}\n" for m in mods) + "import Verif.Audit\n")
print(len(allt), "theorems;", len(claims), "claims; missing:", [p for p in props if p not in [c["property"] for c in claims]])

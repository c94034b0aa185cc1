#!/usr/bin/env python3
"""Run seeded-bug experiments: apply an edit to a model file in a scratch copy, rebuild, report which theorems fail.

usage: mutate.py MUTANTS.json [id ...]     (MUTANTS.json: list of {id, file, def, old, new, edit, claim})
Results go to RESULTS.jsonl next to MUTANTS.json; nothing under /verif is changed.
When a helper lemma breaks, its proof is replaced by a placeholder in the scratch copy so that the property theorems
that depend on it are still checked.
"""
import json, os, re, subprocess, sys, time

SRC, MUT = os.environ.get('MUTSRC', '/verif/lean'), os.environ.get('MUTDIR', '/tmp/mut/lean')
DECL = re.compile(r'^(?:@\[[^\]]*\]\s*)?(?:private |protected |noncomputable )*(theorem|lemma|example|def|instance|structure|inductive|abbrev)\b\s*([^\s:({\[]*)')

def sync():
    os.makedirs(os.path.dirname(MUT), exist_ok=True)
    subprocess.run(['rm', '-rf', MUT], check=True)
    subprocess.run(['cp', '-a', SRC, MUT], check=True)

def decls(text):
    lines = text.split('\n')
    out = []
    last = None
    for i, l in enumerate(lines):
        m = DECL.match(l)
        if m:
            kind, name = m.groups()
            if kind == 'example':
                name = f'example after {last}'
            else:
                last = name
            out.append((i, kind, name))
    return lines, out

def enclosing(path, line):
    lines, ds = decls(open(path).read())
    best = None
    for d in ds:
        if d[0] <= line - 1:
            best = d
    return best

def sorry_out(path, start_line):
    """replace the proof of the declaration starting at start_line (0-based) by sorry"""
    lines, ds = decls(open(path).read())
    starts = [d[0] for d in ds]
    nxt = [s for s in starts if s > start_line]
    end = nxt[0] if nxt else len(lines)
    # cut back over comments/attributes/blank lines before the next declaration
    e = end
    while e > start_line + 1 and not (lines[e - 1].startswith('  ') and lines[e-1].strip()):
        e -= 1
    body = lines[start_line:e]
    txt = '\n'.join(body)
    m = re.search(r':= by\b|:=\n|:= (?=fun|⟨|rfl|[a-zA-Z(])', txt)
    # choose the := at bracket depth zero
    depth = 0
    pos = None
    i = 0
    while i < len(txt):
        c = txt[i]
        if c in '([{⟨': depth += 1
        elif c in ')]}⟩': depth -= 1
        elif txt.startswith(':=', i) and depth == 0:
            # skip "let x := " inside statements
            pre = txt[txt.rfind('\n', 0, i) + 1:i]
            if re.search(r'\blet\b[^;]*$', pre):
                i += 2; continue
            pos = i; break
        elif c == '|' and depth == 0 and txt[:i].endswith('\n  '):
            pos = i; break
        i += 1
    if pos is None:
        return False
    new = txt[:pos].rstrip() + ' := by sorry'
    lines[start_line:e] = new.split('\n')
    open(path, 'w').write('\n'.join(lines))
    return True

def dependents(names):
    """property theorems that use one of the named declarations, directly or not (by textual reference)"""
    bodies = {}
    for d in ('Proofs', 'Props'):
        for f in os.listdir(f'{SRC}/Verif/{d}'):
            lines, ds = decls(open(f'{SRC}/Verif/{d}/{f}').read())
            for k, (i, kind, name) in enumerate(ds):
                end = ds[k + 1][0] if k + 1 < len(ds) else len(lines)
                if kind != 'example' and name:
                    toks = set(re.findall(r"[\w']+", '\n'.join(lines[i:end]).split(name, 1)[-1]))
                    bodies.setdefault(name.split('.')[-1], set()).update(toks)
    hit = {n.split('.')[-1] for n in names if not n.startswith('example')}
    while True:
        new = {n for n, t in bodies.items() if n not in hit and t & hit}
        if not new:
            return sorted(n for n in hit if re.match(r'C\d\d+_', n))
        hit |= new

def targets(claims):
    mods = []
    for f in sorted(os.listdir(SRC + '/Verif/Props')):
        t = open(f'{SRC}/Verif/Props/{f}').read()
        if any(re.search(rf'^theorem {c}_', t, re.M) for c in claims):
            mods.append('Verif.Props.' + f[:-5])
    return mods

def build(mods):
    r = subprocess.run(['lake', 'build'] + mods, cwd=MUT, capture_output=True, text=True, timeout=3600)
    return r.returncode, r.stdout + r.stderr

def run(m):
    path = f"{MUT}/Verif/Model/{m['file']}"
    t = open(path).read()
    n = t.count(m['old'])
    if n != 1 and not m.get('all'):
        return {'status': f'edit matches {n} times'}
    t2 = t.replace(m['old'], m['new'])
    open(path, 'w').write(t2)
    claims = m['claim'] if isinstance(m['claim'], list) else [m['claim']]
    mods = targets(claims) + m.get('extra', [])
    failed, rounds, t0 = [], 0, time.time()
    status = 'ok'
    while True:
        rc, out = build(mods)
        if rc == 0:
            break
        errs = re.findall(r'^error: (Verif/[\w/]+\.lean):(\d+):\d+: (.*)$', out, re.M)
        if not errs:
            status = 'build failed without errors: ' + out[-500:]
            break
        if any('Model/' in e[0] for e in errs):
            status = 'model does not compile: ' + str([e for e in errs if 'Model/' in e[0]][:2]); break
        todo = {}
        for f, ln, msg in errs:
            d = enclosing(f'{MUT}/{f}', int(ln))
            todo.setdefault((f, d), msg)
        new = [k for k in todo if (k[0], k[1][2], k[1][1]) not in [x[:3] for x in failed]]
        if not new:
            status = 'stuck'; break
        for (f, d) in sorted(todo, key=lambda k: (k[0], -k[1][0])):
            tag = (f, d[2], d[1])
            if tag not in [x[:3] for x in failed]:
                failed.append((f, d[2], d[1], todo[(f, d)][:160]))
            if d[1] in ('theorem', 'lemma', 'example'):
                if not sorry_out(f'{MUT}/{f}', d[0]):
                    status = f'could not stub {d[2]} in {f}'
            else:
                status = f'definition {d[2]} in {f} breaks'
        rounds += 1
        deps = dependents([x[1] for x in failed])
        if any(d.startswith(c + '_') for d in deps for c in claims):
            break
        if status != 'ok' or rounds > m.get('rounds', 12):
            if rounds > 12: status = 'too many rounds'
            break
    names = [x[1] for x in failed]
    prop = [x for x in names if re.match(r'(example after )?C\d\d', x)]
    direct = [x for x in names if any(re.match(rf'{c}_', x) for c in claims)]
    return {'status': status, 'rounds': rounds, 'secs': round(time.time() - t0), 'failed': names, 'props': prop, 'direct': direct, 'deps': [d for d in (dependents(names) if names else []) if any(d.startswith(c + '_') for c in claims)], 'files': sorted({x[0] for x in failed})}

def main():
    ms = json.load(open(sys.argv[1]))
    want = set(sys.argv[2:])
    res = os.path.join(os.path.dirname(os.path.abspath(sys.argv[1])), 'RESULTS.jsonl')
    done = set()
    if os.path.exists(res) and not want:
        done = {json.loads(l)['id'] for l in open(res)}
    for m in ms:
        if (want and m['id'] not in want) or m['id'] in done:
            continue
        sync()
        r = run(m)
        r['id'] = m['id']; r['claim'] = m['claim']
        with open(res, 'a') as f:
            f.write(json.dumps(r, ensure_ascii=False) + '\n')
        print(m['id'], m['claim'], r.get('status'), r.get('secs'), 'deps:', r.get('deps'), 'failed:', r.get('failed', [])[:8], flush=True)
    sync()

main()

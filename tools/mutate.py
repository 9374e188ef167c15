#!/usr/bin/env python3
"""Mutation testing of the theorems.

usage: mutate.py MUTANTS.jsonl OUT.jsonl [first [last]]

Each line of MUTANTS.jsonl: {"name", "file", "def", "old", "new", "edit", "claim", "expect": ["C27", ...]}. The edit is made in a
scratch copy of the Lean project. Proofs that then fail are replaced by `sorry`, one level of modules after the other, until
everything builds; a claim is broken if one of its theorems, as listed in MANIFEST.json, then depends on `sorryAx`. The helper
lemmas whose own proofs failed are listed too."""
import json, os, pathlib, re, subprocess, sys, time
SRC = pathlib.Path(os.environ.get("MUT_SRC", "/verif/lean"))
WORK = pathlib.Path(os.environ.get("MUT_DIR", "/tmp/mut/a"))
DECL = re.compile(r"^(?:@\[[^\]]*\]\s*)?(?:private |protected |noncomputable )*(theorem|lemma|example|def|abbrev|instance|structure|inductive|namespace|end|section|variable|open|set_option|import|local|notation|scoped|infix\w*|mutual)\b")

def sh(cmd, timeout):
    try:
        r = subprocess.run(cmd, shell=True, cwd=WORK, capture_output=True, text=True, timeout=timeout)
        return r.stdout + r.stderr
    except subprocess.TimeoutExpired as e:
        return "TIMEOUT " + ((e.stdout or b"").decode() if isinstance(e.stdout, bytes) else (e.stdout or ""))

def fresh():
    WORK.mkdir(parents=True, exist_ok=True)
    subprocess.run(["rsync", "-a", "--delete", str(SRC) + "/", str(WORK) + "/"], check=True) if subprocess.run("which rsync", shell=True, capture_output=True).returncode == 0 else subprocess.run(f"rm -rf {WORK} && cp -a {SRC} {WORK}", shell=True, check=True)

def enclosing(lines, n):
    """0-based start and end of the top-level declaration around line n (0-based), and its kind."""
    i = min(n, len(lines) - 1)
    while i >= 0 and not DECL.match(lines[i]):
        i -= 1
    if i < 0: return None
    kind = DECL.match(lines[i]).group(1)
    j = i + 1
    while j < len(lines) and not DECL.match(lines[j]) and not lines[j].startswith("/-") and not lines[j].startswith("@["):
        j += 1
    return i, j, kind

def split_statement(text):
    """the text of a theorem up to its proof"""
    depth = 0
    k = 0
    while k < len(text):
        c = text[k]
        if text.startswith("--", k) and not text.startswith("--/", k):
            e = text.find("\n", k)
            k = len(text) if e < 0 else e
            continue
        if c == '"':
            k += 1
            while text[k] != '"':
                k += 2 if text[k] == "\\" else 1
        elif c in "([{⟨": depth += 1
        elif c in ")]}⟩": depth -= 1
        elif depth == 0:
            if text.startswith(":=", k):
                # a `let` in the statement
                if not re.search(r"\b(let|have) [^\n;]*$", text[:k]): return text[:k]
            if text.startswith(" where", k) and text[k+6:k+7] in ("\n", " ", ""): return text[:k]
            if text.startswith("\n  | ", k): return text[:k]
        k += 1
    return None

def repair(errs):
    """replace failing proofs; returns names of what was replaced, or None if a declaration that is no proof fails"""
    done = []
    for f, ns in errs.items():
        p = WORK / f
        lines = p.read_text().split("\n")
        spans = {}
        for n in ns:
            e = enclosing(lines, n - 1)
            if e is None: return done, f"{f}:{n}"
            spans[e[0]] = e
        for i in sorted(spans, reverse=True):
            _, j, kind = spans[i]
            text = "\n".join(lines[i:j])
            if kind == "example":
                done.append(f"{f}: example at line {i+1}")
                # drop the doc comment as well
                k = i
                if k > 0 and lines[k-1].rstrip().endswith("-/"):
                    k -= 1
                    while not lines[k].startswith("/-"): k -= 1
                lines[k:j] = [""] * (j - k)
                continue
            if kind not in ("theorem", "lemma"): return done, f"{f}:{i+1} {lines[i][:80]}"
            st = split_statement(text)
            name = re.search(r"(?:theorem|lemma) (\S+)", text).group(1)
            if st is None: return done, f"{f}:{i+1} cannot split {name}"
            body = st.rstrip() + " := by sorry"
            if text[len(st):].strip() == ":= by sorry": return done, f"{f}:{i+1} statement of {name}"
            done.append(name)
            new = body.split("\n")
            lines[i:j] = new + [""] * max(0, j - i - len(new))
        p.write_text("\n".join(lines))
    return done, None

def run(m):
    t0 = time.time()
    fresh()
    p = WORK / m["file"]
    s = p.read_text()
    assert s.count(m["old"]) == 1, (m["name"], s.count(m["old"]))
    p.write_text(s.replace(m["old"], m["new"]))
    for rel, old, new in m.get("also", []):
        q = WORK / rel
        s = q.read_text()
        assert s.count(old) == 1, (m["name"], rel, s.count(old))
        q.write_text(s.replace(old, new))
    failed = []
    problem = None
    for it in range(60):
        out = sh("lake build 2>&1", 2400)
        if out.startswith("TIMEOUT"): problem = "timeout"; break
        errs = {}
        for mm in re.finditer(r"^error: (Verif\S*?\.lean):(\d+):\d+:", out, re.M):
            errs.setdefault(mm.group(1), set()).add(int(mm.group(2)))
        if not errs:
            if "error" in out and "build failed" in out: problem = out[-600:]
            break
        d, problem = repair(errs)
        failed += d
        if problem: problem = problem + " | " + "\n".join(x for x in out.split("\n") if x.startswith("error"))[:600]; break
    else:
        problem = "too many rounds"
    broken, ok = {}, {}
    if problem is None:
        man = json.loads(pathlib.Path("/verif/MANIFEST.json").read_text())
        thms = [(c["property"], t) for c in man["claims"] for t in c["theorems"]]
        (WORK / "Ax.lean").write_text("import Verif\n" + "\n".join(f"#print axioms Verif.{t}" if not t.startswith("Verif.") else f"#print axioms {t}" for _, t in thms) + "\n")
        out = sh("lake env lean Ax.lean 2>&1", 900)
        ax = {}
        for mm in re.finditer(r"'([^']+)' (depends on axioms: \[([^\]]*)\]|does not depend on any axioms)", out):
            ax[mm.group(1)] = mm.group(3) or ""
        for c, t in thms:
            full = t if t.startswith("Verif.") else "Verif." + t
            a = ax.get(full)
            if a is None: continue
            if "sorryAx" in a: broken.setdefault(c, []).append(t)
            else: ok.setdefault(c, []).append(t)
    survived = {c: ok.get(c, []) for c in m["expect"] if c not in broken} if problem is None else None
    r = {"name": m["name"], "definition": m["def"], "file": m["file"], "edit": m["edit"], "claim": m["claim"], "expect": m["expect"],
         "failed_proofs": failed, "broken": broken, "survived": survived, "problem": problem, "seconds": round(time.time() - t0)}
    return r

if __name__ == "__main__":
    ms = [json.loads(l) for l in open(sys.argv[1]) if l.strip()]
    a = int(sys.argv[3]) if len(sys.argv) > 3 else 0
    b = int(sys.argv[4]) if len(sys.argv) > 4 else len(ms)
    for m in ms[a:b]:
        try:
            r = run(m)
        except Exception as e:
            r = {"name": m["name"], "problem": repr(e)}
        with open(sys.argv[2], "a") as f: f.write(json.dumps(r, ensure_ascii=False) + "\n")
        print(r["name"], "problem:" + str(r.get("problem")) if r.get("problem") else "", "broken", sorted(r.get("broken") or {}), "survived", r.get("survived"), r.get("seconds"), flush=True)

#!/usr/bin/env python3
"""Mutation testing in a scratch copy.

usage: mutate.py mutants.json [ids...]

Each mutant is {"id", "file", "old", "new", "definition", "edit", "claim", "expect": ["C05", "C06_name", ...]}.
The edit is applied to the model in a scratch copy, proofs that no longer check are replaced by `sorry` (only in
the scratch copy), and a property theorem counts as failed if its own proof breaks or if it depends on `sorry`.
One line per mutant is appended to seeded/LOG.jsonl."""
import json, os, re, shutil, subprocess, sys
root = os.path.dirname(os.path.dirname(os.path.abspath(__file__)))
scratch = "/root/work/mut/lean"
TOP = re.compile(r"^(theorem|lemma|def|/--|namespace|end|example|open|variable|section|structure|set_option|@\[|inductive|abbrev|instance|private|noncomputable|/-!|omit)")

def reset():
    """the committed sources, with the build products of the working copy"""
    shutil.rmtree(scratch, ignore_errors=True)
    os.makedirs(scratch)
    subprocess.run(f"git -C {root} archive HEAD lean | tar x -C {os.path.dirname(scratch)}", shell=True, check=True)
    shutil.copytree(root + "/lean/.lake", scratch + "/.lake", symlinks=True)

def build(target):
    p = subprocess.run(["lake", "build"] + target, cwd=scratch, capture_output=True, text=True)
    errs = []
    out = p.stdout + p.stderr
    for m in re.finditer(r"^error: (Verif/\S+\.lean):(\d+):(\d+)", out, re.M):
        errs.append((m.group(1), int(m.group(2))))
    return p.returncode, errs, out

def block(lines, ln):
    """start (0-based) of the declaration containing 1-based line ln, and its end"""
    i = min(ln, len(lines)) - 1
    while i > 0 and not re.match(r"^(theorem|lemma|def|example|instance|private theorem|noncomputable def|structure|abbrev)\b", lines[i]):
        i -= 1
    j = i + 1
    while j < len(lines) and not TOP.match(lines[j]):
        j += 1
    return i, j

GONE = []

def sorry_out(f, lns):
    """replace the proofs of the declarations at the given lines; return their names, or None if not a theorem"""
    path = os.path.join(scratch, f)
    lines = open(path).read().split("\n")
    names = []
    for i, j in sorted({block(lines, ln) for ln in lns}, reverse=True):
        ln = i + 1
        head = lines[i]
        name = head.split()[1] if not head.startswith("example") else f"example@{f}:{i+1}"
        if not re.match(r"^(theorem|lemma|example|private theorem)\b", head):
            return None, f"{f}:{ln} {head}"
        if head.startswith("example"):
            lines[i:j] = ["example : True := trivial", ""]
            names.append(name)
            continue
        txt = "\n".join(lines[i:j])
        depth, k = 0, 0
        while k < len(txt):
            c = txt[k]
            if c in "([{⟨": depth += 1
            elif c in ")]}⟩": depth -= 1
            elif depth == 0 and txt.startswith(":=", k) and not re.match(r"\s*let\b", txt[txt.rfind("\n", 0, k) + 1:k]): break
            k += 1
        if txt[k:].strip() == ":= sorry":
            lines[i:j] = ["example : True := trivial", ""]
            GONE.append(name)
            ax = os.path.join(scratch, "Verif/Axioms.lean")
            al = open(ax).read().split("\n")
            open(ax, "w").write("\n".join(x for x in al if not re.fullmatch(r"#print axioms (\S+\.)?" + re.escape(name), x)))
            continue
        lines[i:j] = (txt[:k] + ":= sorry\n").split("\n")
        names.append(name)
    open(path, "w").write("\n".join(lines))
    return names, None

def run(mu):
    reset()
    GONE.clear()
    path = os.path.join(scratch, "Verif", mu["file"])
    t = open(path).read()
    if t.count(mu["old"]) != mu.get("count", 1):
        print(mu["id"], "pattern found", t.count(mu["old"]), "times"); return None
    open(path, "w").write(t.replace(mu["old"], mu["new"]))
    aside = []
    for f, name in mu.get("aside", []):   # theorems whose evaluation does not end when they are false
        ls = open(os.path.join(scratch, f)).read().split("\n")
        ln = next(i for i, l in enumerate(ls) if l.startswith("theorem " + name + " "))
        sorry_out(f, [ln + 1])
        aside.append(name)
    broken, note = [], None
    for _ in range(60):
        rc, errs, out = build([])
        for _ in range(3):   # a process that ran out of memory leaves no error of Lean
            if rc != 0 and not errs: rc, errs, out = build([])
        if rc == 0: break
        if not errs:
            note = "build failed: " + out[-400:]; break
        byf = {}
        for f, ln in errs: byf.setdefault(f, []).append(ln)
        stop = False
        for f, lns in byf.items():
            names, why = sorry_out(f, lns)
            if names is None: note = why; stop = True; break
            broken += names
        if stop: break
    failed = list(GONE)
    if note is None:
        for m in re.finditer(r"'(?:Magnopy\.)?(\S+)' depends on axioms: \[([^\]]*)\]", out):
            if "sorryAx" in m.group(2) and m.group(1).split(".")[-1] not in aside: failed.append(m.group(1))
    return {"broken": broken, "failed": failed, "note": note}

def main():
    mutants = json.load(open(sys.argv[1]))
    ids = sys.argv[2:]
    for mu in mutants:
        if ids and mu["id"] not in ids: continue
        r = run(mu)
        if r is None: continue
        props = sorted({re.search(r"C\d\d+", n).group(0) for n in r["failed"] if re.search(r"C\d\d+", n)})
        missed = [p for p in mu["expect"] if p not in props and p not in {n.split(".")[-1] for n in r["failed"]}] if r["note"] is None else []
        rec = {"mutant": mu["id"], "definition": mu["definition"], "edit": mu["edit"], "claim_broken": mu["claim"],
               "theorems_failed": r["failed"], "lemmas_and_examples_broken": [b for b in r["broken"] if not re.match(r"C\d\d", b)],
               "survived_although_expected_to_fail": missed, "theorems_tightened": mu.get("tightened", [])}
        if mu.get("aside"): rec["not_evaluated"] = [n for _, n in mu["aside"]]
        if r["note"]: rec["note"] = r["note"]
        print(mu["id"], "failed:", props, "missed:", missed, r["note"] or "", flush=True)
        with open(os.path.join(root, "seeded", "LOG.jsonl"), "a") as o:
            o.write(json.dumps(rec, ensure_ascii=False) + "\n")

main()

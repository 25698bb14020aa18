#!/usr/bin/env python3
"""Automatic edits of the model, to look for definitions that no theorem pins down.

usage: automutate.py seed count [file-pattern [definition-pattern]]

A random definition of lean/Verif/Model is changed by a small edit (an operator, a number, a name, a condition, an exception) in a
scratch copy.  If the model still compiles, everything is built until the first proof breaks.  An edit with which everything still
checks is printed and written to /root/work/survivors.jsonl for inspection; one line per edit is appended to
/root/work/auto.jsonl."""
import json, os, random, re, shutil, subprocess, sys, glob, signal, time
root = os.path.dirname(os.path.dirname(os.path.abspath(__file__)))
scratch = "/root/work/amut/lean"
OPS = [
    (r" \+ ", " - "), (r" - ", " + "), (r" \* ", " + "), (r" / ", " * "), (r" ∧ ", " ∨ "), (r" ∨ ", " ∧ "), (r" && ", " || "), (r" \|\| ", " && "),
    (r" ≤ ", " < "), (r" < ", " ≤ "), (r" = ", " ≠ "), (r" ≠ ", " = "), (r" == ", " != "), (r" != ", " == "),
    (r"(?<![\w.])0(?![\w.])", "1"), (r"(?<![\w.])1(?![\w.])", "2"), (r"(?<![\w.])2(?![\w.])", "3"), (r"(?<![\w.])3(?![\w.])", "4"),
    (r"\btrue\b", "false"), (r"\bfalse\b", "true"), (r"\.valueError\b", ".typeError"), (r"\.typeError\b", ".valueError"), (r"\.keyError\b", ".valueError"),
    (r"\.attributeError\b", ".valueError"), (r"\bif ", "if ¬ "), (r"\.reverse\b", ""), (r"!(?=[a-z(])", ""), (r"\bi j\b", "j i"), (r"\bi 0\b", "i 1"),
    (r"\bsin\b", "cos"), (r"\bcos\b", "sin"), (r"\.any\b", ".all"), (r"\.all\b", ".any"), (r"\.take\b", ".drop"), (r"\.drop\b", ".take"),
    (r"\bnone\b", "some default"), (r"\.1\b", ".2"), (r"\.2\b", ".1"), (r"Str\.lit \"([^\"]+)\"", r'Str.lit "\1x"'), (r"\.tail\b", ""), (r"-(?=[a-z(])", ""),
    (r"\+\+ ", "++ [] ++ "), (r"\.filter\b", ".dropWhile"), (r"\.insert\b", ".erase"), (r" :: ", " :: [] ++ "), (r"\.max\b", ".min"), (r"\bmax\b", "min"),
    (r"\.head\?", ".getLast?"), (r"\.fst\b", ".snd"), (r"\.snd\b", ".fst"), (r"\.lower\b", ""), (r"\.conj\b", ""), (r"\bstar\b", "id"),
]
NOOP = {(r"\+\+ "), (r" :: ")}

def definitions():
    out = []
    for f in sorted(glob.glob(root + "/lean/Verif/Model/*.lean")):
        lines = open(f).read().split("\n")
        i = 0
        while i < len(lines):
            m = re.match(r"(?:@\[.*?\] )?(?:noncomputable |private )?def (\S+)", lines[i])
            if m:
                j = i + 1
                while j < len(lines) and lines[j].strip() != "": j += 1
                out.append((os.path.relpath(f, root + "/lean"), m.group(1), i, j))
                i = j
            else: i += 1
    return out

def reset():
    shutil.rmtree(scratch, ignore_errors=True)
    os.makedirs(scratch)
    subprocess.run(f"git -C {root} archive HEAD lean | tar x -C {os.path.dirname(scratch)}", shell=True, check=True)
    shutil.copytree(root + "/lean/.lake", scratch + "/.lake", symlinks=True)

def quick():
    p = subprocess.Popen(["lake", "build"], cwd=scratch, stdout=subprocess.PIPE, stderr=subprocess.STDOUT, text=True, start_new_session=True)
    hit = None
    tail = []
    for line in p.stdout:
        tail.append(line); tail = tail[-5:]
        m = re.match(r"error: (Verif/\S+\.lean):(\d+):(\d+)", line)
        if m:
            hit = (m.group(1), int(m.group(2)))
            os.killpg(p.pid, signal.SIGKILL)
            break
    p.wait()
    if hit: return hit
    return None if p.returncode == 0 else ("?", "".join(tail))

def name_at(f, ln):
    lines = open(os.path.join(scratch, f)).read().split("\n")
    i = min(ln, len(lines)) - 1
    while i > 0 and not re.match(r"^(theorem|lemma|def|example|instance|private theorem|noncomputable def|structure|abbrev)\b", lines[i]): i -= 1
    return f"{f}: {lines[i][:60]}"

def main():
    rnd = random.Random(int(sys.argv[1])); count = int(sys.argv[2])
    fp = sys.argv[3] if len(sys.argv) > 3 else ""
    dp = sys.argv[4] if len(sys.argv) > 4 else ""
    defs = [d for d in definitions() if re.search(fp, d[0]) and re.search(dp, d[1])]
    done = set()
    if os.path.exists("/root/work/auto.jsonl"):
        for l in open("/root/work/auto.jsonl"):
            r = json.loads(l); done.add((r["file"], r["line"], r["new"]))
    n = 0
    tries = 0
    fresh = False
    while n < count and tries < 60 * count:
        tries += 1
        f, name, i, j = rnd.choice(defs)
        src = open(os.path.join(root, "lean", f)).read().split("\n")
        body = list(range(i, j))
        k = rnd.choice(body)
        op = rnd.choice([o for o in OPS if o[0] not in NOOP])
        line = src[k]
        start = 0
        if k == i or ":=" in line:
            p = line.find(":=")
            if p < 0: continue
            start = p + 2
        ms = [m for m in re.finditer(op[0], line) if m.start() >= start]
        if not ms: continue
        m = rnd.choice(ms)
        new = line[:m.start()] + m.expand(op[1]) + line[m.end():]
        if new == line or (f, k + 1, new) in done: continue
        done.add((f, k + 1, new))
        if not fresh: reset(); fresh = True
        path = os.path.join(scratch, f)
        dst = list(src); dst[k] = new
        open(path, "w").write("\n".join(dst))
        mod = f[:-5].replace("/", ".")
        r = subprocess.run(["lake", "env", "lean", f], cwd=scratch, capture_output=True, text=True)
        if r.returncode != 0:
            open(path, "w").write("\n".join(src))
            continue
        t0 = time.time()
        hit = quick()
        fresh = False
        n += 1
        rec = {"file": f, "definition": name, "line": k + 1, "old": line.strip(), "new": new}
        if hit is None: rec["result"] = "survived"
        elif hit[0] == "?": rec["result"] = "unclear " + hit[1]
        else: rec["result"] = "broke"; rec["at"] = name_at(*hit)
        rec["seconds"] = round(time.time() - t0)
        open("/root/work/auto.jsonl", "a").write(json.dumps(rec, ensure_ascii=False) + "\n")
        if rec["result"] != "broke": open("/root/work/survivors.jsonl", "a").write(json.dumps(rec, ensure_ascii=False) + "\n")
        print(rec["result"], rec["seconds"], f, name, "|", line.strip(), "=>", new.strip(), "|", rec.get("at", ""), flush=True)

main()

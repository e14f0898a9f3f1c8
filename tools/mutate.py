#!/usr/bin/env python3
"""Wrong-program experiments.  usage: mutate.py batch.json
batch: [{"file": "Verif/X.lean", "def": name, "old": text, "new": text, "edit": words, "breaks": words, "target": "Verif.XProps"}]
Works on a scratch copy in /tmp/mut; appends one line per attempt to /verif/seeded/LOG.jsonl."""
import json, os, re, subprocess, sys, shutil
SRC, DST, LOG = "/verif/lean", "/tmp/mut/lean", "/verif/seeded/LOG.jsonl"
def sync():
    os.makedirs(DST, exist_ok=True)
    subprocess.run(["rsync", "-a", "--delete", SRC + "/", DST + "/"], check=True) if shutil.which("rsync") else \
        subprocess.run(f"rm -rf {DST} && cp -a {SRC} {DST}", shell=True, check=True)
def thm_at(path, line):
    name = None
    ns = []
    for i, l in enumerate(open(path, encoding="utf8"), 1):
        m = re.match(r"\s*(?:private |protected |noncomputable )*(theorem|lemma|def|example|instance)\s*([^\s:({\[]*)", l)
        m2 = re.match(r"namespace (\S+)", l)
        if m2: ns = [m2.group(1)]
        if m: name = ".".join(ns + [m.group(2) or m.group(1)])
        if i >= line: break
    return name
def main():
    batch = json.load(open(sys.argv[1]))
    sync()
    for b in batch:
        p = os.path.join(DST, b["file"])
        orig = open(p, encoding="utf8").read()
        n = orig.count(b["old"])
        if n == 0 or (n > 1 and not b.get("all")):
            print("BAD PATTERN", n, b["def"], b["old"][:60]); continue
        open(p, "w", encoding="utf8").write(orig.replace(b["old"], b["new"]))
        r = subprocess.run(["lake", "build"] + b["target"].split(), cwd=DST, capture_output=True, text=True, timeout=1800)
        out = r.stdout + r.stderr
        failed = []
        for m in re.finditer(r"error: (\S+\.lean):(\d+):\d+", out):
            t = thm_at(os.path.join(DST, m.group(1)), int(m.group(2)))
            if t and t not in failed: failed.append(t)
        open(p, "w", encoding="utf8").write(orig)
        rec = {"definition": b["def"], "file": b["file"], "edit": b["edit"], "breaks": b["breaks"],
               "failed": failed, "survived": r.returncode == 0, "tightened": b.get("tightened", [])}
        print(("SURVIVED " if r.returncode == 0 else "killed   ") + b["def"] + ": " + b["edit"] + " -> " + ", ".join(failed[:6]))
        if not os.environ.get("DRY"):
            open(LOG, "a").write(json.dumps(rec, ensure_ascii=False) + "\n")
main()

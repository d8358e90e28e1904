#!/usr/bin/env python3
"""Seeded-bug runs.  Usage: mutate.py <file.py> where the file defines MUTS, a list of
(module path under lean/, definition, old text, new text, what the edit is, claim it breaks).
Each edit is made in a scratch copy outside /verif, rebuilt, and one line is added to seeded/LOG.jsonl."""
import json, os, re, resource, subprocess, sys, shutil
SRC = "/verif/lean"; W = "/tmp/mut/work"
def sync():
    subprocess.run(["rsync", "-a", "--delete", SRC + "/", W + "/"], check=True) if shutil.which("rsync") else (
        shutil.rmtree(W, ignore_errors=True), shutil.copytree(SRC, W, symlinks=True))
def decl_at(path, line):
    ls = open(path).read().split("\n")
    for i in range(min(line, len(ls)) - 1, -1, -1):
        m = re.match(r"\s*(?:private |protected |@\[.*?\] )*(theorem|def|instance|example|structure|inductive|lemma)\s*([^\s:({\[]*)", ls[i])
        if m: return (m.group(1) + " " + m.group(2)).strip() if m.group(1) != "theorem" else m.group(2)
    return "?"
def build():
    r = subprocess.run(["lake", "build"], cwd=W, capture_output=True, text=True, timeout=1500,
        preexec_fn=lambda: resource.setrlimit(resource.RLIMIT_AS, (48 << 30, 48 << 30)))
    out = r.stdout + r.stderr
    bad = []
    for m in re.finditer(r"error: (Verif/\S+\.lean):(\d+):", out):
        d = decl_at(os.path.join(W, m.group(1)), int(m.group(2)))
        s = m.group(1)[6:-5].replace("/", ".") + ":" + d
        if s not in bad: bad.append(s)
    return r.returncode, bad, out
def main():
    ns = {}; exec(open(sys.argv[1]).read(), ns)
    log = "/verif/seeded/LOG.jsonl"
    for (mod, d, old, new, edit, claim) in ns["MUTS"]:
        sys.stdout.flush()
        sync()
        p = os.path.join(W, mod); s = open(p).read()
        if s.count(old) != 1:
            print("SKIP", d, edit, "old text count", s.count(old)); continue
        open(p, "w").write(s.replace(old, new))
        rc, bad, out = build()
        # errors inside the model file itself mean the edit was not well-formed
        ill = [b for b in bad if b.startswith(mod[6:-5].replace("/", ".") + ":def")]
        print(("ILL-FORMED " if ill else "") + ("SURVIVED" if rc == 0 else "caught"), "|", d, "|", edit, "|", bad[:6], flush=True)
        if rc != 0 and not bad:
            print("BUILD PROBLEM", out[-500:]); continue
        if ill:
            print(out[-1500:]); continue
        json.dump({"definition": d, "edit": edit, "claim": claim, "failed": bad, "survived": rc == 0, "tightened": []},
                  open(log, "a")); open(log, "a").write("\n")
main()

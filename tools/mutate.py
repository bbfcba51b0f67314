#!/usr/bin/env python3
"""Apply seeded edits to a scratch copy of the model, rebuild, and log which theorems fail.

Usage: mutate.py FILE.json   (list of {"file","old","new","definition","edit","claim"[,"tightened"]})
The scratch copy lives in /tmp/mut/lean; results are appended to /verif/seeded/LOG.jsonl.
"""
import json, os, re, signal, subprocess, sys, threading, time

SCRATCH = "/tmp/mut/lean"
LOG = "/verif/seeded/LOG.jsonl"


def sync():
    # a build in /verif/lean may replace files while they are copied
    for attempt in range(20):
        r = subprocess.run("rm -rf %s && mkdir -p %s && cp -a /verif/lean/. %s/" % (SCRATCH, SCRATCH, SCRATCH),
                           shell=True)
        if r.returncode == 0:
            return
        time.sleep(15)
    raise RuntimeError("cannot copy /verif/lean")


def enclosing(path, line):
    name = None
    for i, l in enumerate(open(path).read().split("\n"), 1):
        m = re.match(r"(?:private |protected |noncomputable )*(theorem|lemma|def|instance|structure|inductive|example)\s*(\S*)", l)
        if m:
            if i > line:
                break
            name = m.group(2) if m.group(1) != "example" else "example@%d" % i
    return name


def build():
    p = subprocess.Popen(["lake", "build"], cwd=SCRATCH, stdout=subprocess.PIPE, stderr=subprocess.STDOUT,
                         text=True, start_new_session=True)
    lines, first = [], [None]

    def read():
        for l in p.stdout:
            lines.append(l)
            if first[0] is None and re.match(r"error: Verif/", l):
                first[0] = time.time()
    t = threading.Thread(target=read)
    t.start()
    # A build that has failed goes on for a minute to see which other modules fail.
    while t.is_alive():
        t.join(2)
        if first[0] is not None and time.time() - first[0] > 60:
            os.killpg(p.pid, signal.SIGKILL)
            break
    t.join()
    p.wait()
    out = "".join(lines)
    failed, bad = [], set()
    for m in re.finditer(r"error: (Verif/\S+\.lean):(\d+):\d+", out):
        n = enclosing(os.path.join(SCRATCH, m.group(1)), int(m.group(2)))
        if n and n not in failed:
            failed.append(n)
        bad.add(m.group(1)[:-5].replace("/", "."))
    return p.returncode, failed, bad


def blocked(bad):
    """Property modules that import a failing module."""
    imports = {}
    for d, _, fs in os.walk(os.path.join(SCRATCH, "Verif")):
        for f in fs:
            if f.endswith(".lean"):
                p = os.path.join(d, f)
                m = os.path.relpath(p, SCRATCH)[:-5].replace("/", ".")
                imports[m] = re.findall(r"^import (Verif\S*)", open(p).read(), re.M)
    res = set(bad)
    ch = True
    while ch:
        ch = False
        for m, im in imports.items():
            if m not in res and any(i in res for i in im):
                res.add(m)
                ch = True
    return sorted(m for m in res if ".Props." in m)


def main():
    for e in json.load(open(sys.argv[1])):
        sync()
        p = os.path.join(SCRATCH, e["file"])
        s = open(p).read()
        if s.count(e["old"]) < 1:
            print("NOT FOUND", e["definition"], e["edit"]); continue
        open(p, "w").write(s.replace(e["old"], e["new"], 1))
        rc, failed, bad = build()
        rec = {"definition": e["definition"], "edit": e["edit"], "claim_broken": e["claim"],
               "theorems_failed": failed, "property_modules_blocked": blocked(bad),
               "theorems_tightened": e.get("tightened", [])}
        if rc == 0:
            rec["survived"] = True
        print("SURVIVED" if rc == 0 else "caught", e["definition"], "|", e["edit"], "|", failed[:6], flush=True)
        if not e.get("dry"):
            open(LOG, "a").write(json.dumps(rec) + "\n")


main()

"""Apply seeded bugs to a scratch copy of the Lean project and log which theorems fail.

usage: mutate.py mutations.json [scratch-dir]
Each entry: {"definition","edit","claim","file","old","new"[, "count"]}.
"""
import json, subprocess, sys, os, re, shutil, signal
muts = json.load(open(sys.argv[1]))
scratch = sys.argv[2] if len(sys.argv) > 2 else "/tmp/mut"
SRC = os.environ.get("MUTSRC", "/verif/lean")
log = "/verif/seeded/LOG.jsonl"
subprocess.run(["rsync", "-a", "--delete", SRC + "/", scratch + "/"], check=False) \
    if shutil.which("rsync") else subprocess.run(f"rm -rf {scratch} && cp -a {SRC} {scratch}", shell=True, check=True)

def decl_at(path, line):
    try:
        src = open(path).read().split("\n")
    except OSError:
        return "?"
    ns = []
    name = None
    for k, l in enumerate(src[:line]):
        m = re.match(r"\s*namespace\s+(\S+)", l)
        if m: ns.append(m.group(1))
        m = re.match(r"\s*end\s+(\S+)", l)
        if m and ns and ns[-1] == m.group(1): ns.pop()
        m = re.match(r"(?:@\[[^\]]*\]\s*)?(?:private\s+|protected\s+|noncomputable\s+)*(theorem|lemma|def|example|instance|structure|inductive)\s*(\S*)", l)
        if m:
            name = ".".join(ns + [m.group(2)]) if m.group(1) != "example" else ".".join(ns) + ".example@%d" % (k + 1)
    return name or "?"

def imports(path):
    return [m.group(1) for m in re.finditer(r"^import (Verif\.\S+)", open(path).read(), re.M)]

def modpath(m): return os.path.join(scratch, m.replace(".", "/") + ".lean")

def props_blocked(failed_mods):
    mods = {}
    for root, _, fs in os.walk(os.path.join(scratch, "Verif")):
        for f in fs:
            if f.endswith(".lean"):
                p = os.path.join(root, f)
                mods[os.path.relpath(p, scratch)[:-5].replace("/", ".")] = imports(p)
    bad = set(failed_mods)
    ch = True
    while ch:
        ch = False
        for m, im in mods.items():
            if m not in bad and any(i in bad for i in im):
                bad.add(m); ch = True
    return sorted(m for m in bad if m not in failed_mods and ".Props." in m)

FIRST = os.environ.get("MUTFIRST") is not None  # stop at the first module that fails

def levels(mod):
    """Modules that depend on `mod`, by their distance to it."""
    mods = {}
    for root, _, fs in os.walk(os.path.join(scratch, "Verif")):
        for f in fs:
            if f.endswith(".lean"):
                p = os.path.join(root, f)
                mods[os.path.relpath(p, scratch)[:-5].replace("/", ".")] = imports(p)
    seen, lev = {mod}, [mod]
    while lev:
        yield lev
        lev = sorted(m for m, im in mods.items() if m not in seen and any(i in lev for i in im))
        seen.update(lev)

def build(mod):
    if not FIRST:
        r = subprocess.run(["lake", "build"], cwd=scratch, capture_output=True, text=True)
        return r.returncode, r.stdout + r.stderr
    for target in [*levels(mod), []]:
        r = subprocess.Popen(["lake", "build", *target], cwd=scratch, stdout=subprocess.PIPE, stderr=subprocess.STDOUT, text=True, start_new_session=True)
        out = ""
        for line in r.stdout:
            out += line
            if out.count("error: Verif/") and re.match(r"(✔|✖|ℹ|⚠|error: Lean exited|error: build failed)", line):
                os.killpg(r.pid, signal.SIGKILL)
                r.wait()
                return 1, out
        if r.wait() != 0:
            return 1, out
    return 0, out

for mu in muts:
    p = os.path.join(scratch, mu["file"])
    orig = open(os.path.join(SRC, mu["file"])).read()
    n = orig.count(mu["old"])
    if n < 1 or (n != 1 and "count" not in mu):
        print("BAD MUTATION", n, mu["definition"], mu["edit"]); continue
    open(p, "w").write(orig.replace(mu["old"], mu["new"], mu.get("count", 1)))
    code, out = build(mu["file"][:-5].replace("/", "."))
    failed, fmods = [], set()
    for m in re.finditer(r"^error: (Verif/\S+\.lean):(\d+):\d+", out, re.M):
        d = decl_at(os.path.join(scratch, m.group(1)), int(m.group(2)))
        fmods.add(m.group(1)[:-5].replace("/", "."))
        if d not in failed: failed.append(d)
    if code != 0 and not failed:
        failed = ["build error: " + out[-300:]]
    entry = {"definition": mu["definition"], "edit": mu["edit"], "claim_broken": mu["claim"],
             "theorems_failed": failed, "property_modules_blocked": props_blocked(fmods),
             "theorems_tightened": mu.get("tightened", []),
             "survived": code == 0}
    print(("SURVIVED " if code == 0 else "killed   ") + mu["definition"] + ": " + mu["edit"], failed[:6], flush=True)
    open(log, "a").write(json.dumps(entry) + "\n")
    open(p, "w").write(orig)

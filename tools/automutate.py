"""Generic seeded bugs: small random edits of the definitions under Verif/Model.

usage: automutate.py seed count [only-file-regex] [scratch-dir]
Works on a scratch copy of $MUTSRC (default /verif/lean, which must be built), stops each
build at the first theorem that fails and writes one JSON line per edit to
/verif/seeded/AUTO.jsonl.  Edits after which the edited definition itself no longer
elaborates are not programs and are not recorded.
"""
import json, subprocess, sys, os, re, shutil, random, signal
seed, count = int(sys.argv[1]), int(sys.argv[2])
only = re.compile(sys.argv[3]) if len(sys.argv) > 3 else None
scratch = sys.argv[4] if len(sys.argv) > 4 else "/tmp/amut"
SRC = os.environ.get("MUTSRC", "/verif/lean")
LOG = os.environ.get("AUTOLOG", "/verif/seeded/AUTO.jsonl")
rnd = random.Random(seed)
DECL = re.compile(r"^(?:@\[[^\]]*\]\s*)?(?:private\s+|protected\s+|noncomputable\s+)*(theorem|lemma|def|example|instance|structure|inductive|abbrev)\s*(\S*)")

def decls(src):
    """(kind, name, first line, last line) of each declaration, comments stripped out of range."""
    out, ns = [], []
    lines = src.split("\n")
    incom = False
    for k, l in enumerate(lines):
        if incom:
            if "-/" in l: incom = False
            continue
        if l.startswith("/-"):
            if out and out[-1][3] is None: out[-1][3] = k
            if "-/" not in l: incom = True
            continue
        m = re.match(r"namespace\s+(\S+)", l)
        if m: ns.append(m.group(1))
        m2 = re.match(r"end\s+(\S+)", l)
        if m2 and ns and ns[-1] == m2.group(1): ns.pop()
        d = DECL.match(l)
        if d or m or m2 or re.match(r"(open|variable|section|end|import|set_option|attribute)\b", l):
            if out and out[-1][3] is None: out[-1][3] = k
        if d: out.append([d.group(1), ".".join(ns + [d.group(2)]), k, None])
    if out and out[-1][3] is None: out[-1][3] = len(lines)
    return out, lines

OPS = [(r" < ", " ≤ "), (r" ≤ ", " < "), (r" > ", " ≥ "), (r" = 0 then", " ≠ 0 then"), (r" == ", " != "), (r" != ", " == "),
       (r" ≠ ", " = "), (r" && ", " || "), (r" \|\| ", " && "), (r" \+ 1\b", " + 2"), (r" \+ 1\b", ""),
       (r" - 1\b", ""), (r" \+ ", " - "), (r" - ", " + "), (r" \* ", " + "), (r" / ", " * "),
       (r"\btrue\b", "false"), (r"\bfalse\b", "true"), (r"(?<![\w.⟩)])0(?![\w.])", "1"), (r"(?<![\w.⟩)])1(?![\w.])", "2"),
       (r"(?<![\w.⟩)])1(?![\w.])", "0"), (r"(?<![\w.⟩)])2(?![\w.])", "3"), (r"\.1\b", ".2"), (r"\.2\b", ".1"), (r"\btake\b", "drop"),
       (r"\bdrop\b", "take"), (r"\.throw\b", ".ub"), (r"\bmax\b", "min"), (r"\bmin\b", "max"), (r"\bif ", "if ¬ "),
       (r"\.length\b", ".length.succ"), (r"\binputDim\b", "outputDim"), (r"\boutputDim\b", "inputDim"),
       (r"\blb\b", "ub"), (r"(?<!\.)\bub\b", "lb"), ("SWAP", ""), ("DROP", "")]

def mutants(text):
    """all single edits of a definition's text (after its signature's := or first |)"""
    m = re.search(r":=|\n\s*\|", text)
    b = m.start() if m else 0
    out = []
    for pat, rep in OPS:
        if pat == "SWAP":
            for mm in re.finditer(r"(?<=[\s(])([a-zA-Z]\w*) ([a-zA-Z]\w*)(?=[\s),])", text):
                if mm.start() >= b and mm.group(1) != mm.group(2) and not {mm.group(1), mm.group(2)} & {"let", "if", "then", "else", "fun", "match", "with", "do", "in", "from", "have"}:
                    out.append((text[:mm.start()] + mm.group(2) + " " + mm.group(1) + text[mm.end():], mm.group(0) + " → swapped"))
        elif pat == "DROP":
            for mm in re.finditer(r"\n  +(if [^\n]* then (?:\.throw|\.ub)[^\n]* else)?(?=\n)", text):
                if mm.group(1) and mm.start() >= b:
                    out.append((text[:mm.start()] + text[mm.end():], "dropped: " + mm.group(1)))
        else:
            for mm in re.finditer(pat, text):
                if mm.start() >= b:
                    ctx = text[max(0, mm.start() - 25):mm.end() + 25].replace("\n", " ")
                    out.append((text[:mm.start()] + rep + text[mm.end():], f"{mm.group(0)!r} → {rep!r} in …{ctx}…"))
    return out

def decl_at(path, line):
    ds, _ = decls(open(path).read())
    c = [d for d in ds if d[2] < line]
    return (c[-1][0], c[-1][1]) if c else ("?", "?")

subprocess.run(f"rm -rf {scratch} && cp -a {SRC} {scratch}", shell=True, check=True)
cands = []
for f in sorted(os.listdir(os.path.join(SRC, "Verif/Model"))):
    if not f.endswith(".lean") or (only and not only.search(f)): continue
    src = open(os.path.join(SRC, "Verif/Model", f)).read()
    ds, lines = decls(src)
    for kind, name, a, e in ds:
        if kind in ("def", "abbrev"): cands.append((f, name, a, e))
done = set()
if os.path.exists(LOG):
    for l in open(LOG):
        j = json.loads(l); done.add((j["definition"], j["edit"]))
n = 0
order = cands[:]; rnd.shuffle(order)
while n < count and order:
    for f, name, a, e in list(order):
        if n >= count: break
        p = os.path.join(scratch, "Verif/Model", f)
        orig = open(os.path.join(SRC, "Verif/Model", f)).read()
        lines = orig.split("\n")
        text = "\n".join(lines[a:e])
        ms = [x for x in mutants(text) if (name, x[1]) not in done]
        if not ms:
            order.remove((f, name, a, e)); continue
        new, desc = rnd.choice(ms); done.add((name, desc))
        open(p, "w").write("\n".join(lines[:a]) + "\n" + new + "\n" + "\n".join(lines[e:]))
        env = dict(os.environ, LEAN_NUM_THREADS="2")
        pr = subprocess.Popen(["nice", "-n", "10", "lake", "build"], cwd=scratch, stdout=subprocess.PIPE, stderr=subprocess.STDOUT, text=True, env=env, start_new_session=True)
        status, failed = "survived", []
        for l in pr.stdout:
            m = re.match(r"error: (Verif/\S+\.lean):(\d+):\d+", l)
            if m:
                kind, d = decl_at(os.path.join(scratch, m.group(1)), int(m.group(2)))
                if kind in ("def", "abbrev", "instance", "structure"):
                    status = "invalid"
                else:
                    status = "killed"; failed.append(d)
                break
            if l.startswith("error:"):
                status = "killed"; failed.append(l.strip()); break
        try: os.killpg(pr.pid, signal.SIGKILL)
        except ProcessLookupError: pass
        pr.wait()
        open(p, "w").write(orig)
        subprocess.run(f"rm -rf {scratch}/.lake/build && cp -a {SRC}/.lake/build {scratch}/.lake/build", shell=True, check=True)
        n += 1
        if status != "invalid":
            open(LOG, "a").write(json.dumps({"file": f, "definition": name, "edit": desc, "status": status, "first_failure": failed}, ensure_ascii=False) + "\n")
        print(status, f, name, desc, failed, flush=True)

"""List the names declared in more than one module."""
import re, os, collections
root = os.path.join(os.path.dirname(__file__), "..", "lean", "Verif")
seen = collections.defaultdict(set)
for d, _, fs in os.walk(root):
    for f in fs:
        if not f.endswith(".lean"): continue
        ns = []
        for line in open(os.path.join(d, f)):
            m = re.match(r"namespace (\S+)", line)
            if m: ns.append(m[1])
            m = re.match(r"end (\S+)", line)
            if m and ns and ns[-1] == m[1]: ns.pop()
            m = re.match(r"(?:@\[[^\]]*\]\s*)?(?:private |protected |noncomputable )*(?:def|theorem|inductive|structure|abbrev|instance)\s+([^\s:({\[]+)", line)
            if m and "private" not in line: seen[".".join(ns + [m[1]])].add(os.path.relpath(os.path.join(d, f), root))
for n, fs in sorted(seen.items()):
    if len(fs) > 1: print(n, sorted(fs))

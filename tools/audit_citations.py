#!/usr/bin/env python3
"""Print every source citation in the Lean model beside the first and last cited line."""
import re, glob, os
src = {os.path.basename(p): open(p, errors='replace').read().split('\n')
       for d in ('libdebugger/command', 'libdebugger', 'src')
       for p in glob.glob(f'/repo/{d}/*.[ch]')}
pat = re.compile(r'\b([a-z_0-9]+\.[ch])`?,?\s*\(?(?:lines?\s+)?((?:\d+(?:-\d+)?)(?:,\s*\d+(?:-\d+)?)*)')
for f in sorted(glob.glob('/verif/lean/Verif/**/*.lean', recursive=True)):
    text = open(f).read()
    for m in pat.finditer(text):
        if m[1] not in src:
            print('??', f, m[0]); continue
        L = src[m[1]]
        after = re.search(r'-/\s*\n(?:@\[.*\]\n)?(?:noncomputable )?(?:def|structure|inductive|abbrev)\s+(\S+)', text[m.end():m.end()+900])
        for r in m[2].split(','):
            a, *b = [int(x) for x in r.strip().split('-')]
            b = b[0] if b else a
            ok = b <= len(L) and a <= b
            print(('' if ok else 'BAD ') + f"{f.split('Verif/')[1]} [{after[1] if after else '-'}] {m[1]}:{a}-{b} | {L[a-1].strip()[:48] if a <= len(L) else ''} | {L[b-1].strip()[:40] if ok else ''}")

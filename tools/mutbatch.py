#!/usr/bin/env python3
"""Run a list of mutants: tools/mutbatch.py FILE.py, which defines M = [(file, old, new, defn, claim), ...]"""
import sys, subprocess, os, json
g={}
exec(open(sys.argv[1]).read(),g)
for m in g['M']:
    print('==',m[3],':',m[4],flush=True)
    subprocess.run(['python3','/verif/tools/mutate.py',*m[:5]],env={**os.environ,'EXTRA':json.dumps(m[5] if len(m)>5 else [])})

#!/usr/bin/env python3
"""Insert the p(...) calls read from stdin into tools/props.py before its final open(...) and regenerate."""
import sys, subprocess
f='/verif/tools/props.py'
s=open(f).read()
i=s.index("open('/verif/properties.jsonl'")
open(f,'w').write(s[:i]+sys.stdin.read()+s[i:])
subprocess.run(['python3',f],check=True)

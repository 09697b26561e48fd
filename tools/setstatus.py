#!/usr/bin/env python3
import json, sys
# usage: setstatus.py C01 partial "note" ...
p = '/verif/tools/status.json'
s = json.load(open(p))
a = sys.argv[1:]
for i in range(0, len(a), 3):
    s[a[i]] = [a[i + 1], a[i + 2]]
json.dump(s, open(p, 'w'), indent=0)

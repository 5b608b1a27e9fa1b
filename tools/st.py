#!/usr/bin/env python3
"""usage: st.py ID STATUS NOTE - record the status of a property"""
import json, sys, pathlib
p = pathlib.Path(__file__).resolve().parent / 'status.json'
s = json.load(open(p))
s[sys.argv[1]] = {"status": sys.argv[2], "note": sys.argv[3]}
s = dict(sorted(s.items()))
json.dump(s, open(p, 'w'), indent=1)

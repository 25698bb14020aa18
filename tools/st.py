#!/usr/bin/env python3
"""Set the status of a property: st.py C14 proved "note"."""
import json, os, sys
p = os.path.join(os.path.dirname(os.path.abspath(__file__)), "status.json")
d = json.load(open(p))
d[sys.argv[1]] = {"status": sys.argv[2], "note": sys.argv[3]}
json.dump(d, open(p, "w"), indent=0, ensure_ascii=False, sort_keys=True)

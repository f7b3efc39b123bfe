"""usage: setstatus.py C09 partial "note" — edit tools/status.json"""
import json, sys, os
p = os.path.join(os.path.dirname(__file__), 'status.json')
d = json.load(open(p))
d[sys.argv[1]] = {"status": sys.argv[2], "note": sys.argv[3] if len(sys.argv) > 3 else ""}
open(p, 'w').write("{\n" + ",\n".join(' "%s": %s' % (k, json.dumps(d[k], ensure_ascii=False)) for k in sorted(d)) + "\n}\n")

import json,sys
p='/verif/tools/status.json'
d=json.load(open(p))
d[sys.argv[1]]={"status":sys.argv[2],"note":sys.argv[3] if len(sys.argv)>3 else ""}
json.dump(dict(sorted(d.items())),open(p,'w'),indent=1)

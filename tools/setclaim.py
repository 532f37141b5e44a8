import json,sys
p='/verif/tools/claims.json'
d=json.load(open(p))
c,status,note=sys.argv[1:4]
d.setdefault(c,{})
if status!='-': d[c]['status']=status
d[c]['note']=note
json.dump(d,open(p,'w'),indent=1,sort_keys=True)

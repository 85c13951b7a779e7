import json
M={}
def m(id,status,theorems,note=""):
    M[id]=dict(property=id,status=status,theorems=["PPP."+t for t in theorems],note=note)
exec(open('/verif/tools/manifest_data.py').read())
ids=[json.loads(l)["id"] for l in open('/verif/properties.jsonl')]
json.dump({"claims":[M[i] for i in ids if i in M]},open('/verif/MANIFEST.json','w'),indent=1,ensure_ascii=False)
print("missing:",[i for i in ids if i not in M])

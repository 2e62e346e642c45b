import json
P='/verif/properties.jsonl'
D=[json.loads(l) for l in open(P)]
def s(i,**k):
    for d in D:
        if d['id']==i: d.update(k); return
    D.append(dict(id=i,**k))
def save(): open(P,'w').write(''.join(json.dumps(d)+'\n' for d in D))

#!/usr/bin/env python3
"""Register properties: reads a JSON list of [property object, status, note, how] from stdin and updates properties.jsonl, status.json, how.json."""
import json,sys,os
os.chdir(os.path.join(os.path.dirname(os.path.abspath(__file__)),'..'))
s=json.load(open('tools/status.json'));h=json.load(open('tools/how.json'))
props=[json.loads(l) for l in open('properties.jsonl')]
for p,st,note,how in json.load(sys.stdin):
    props=[q for q in props if q['id']!=p['id']]+[p]
    s[p['id']]=[st,note];h[p['id']]=how
props.sort(key=lambda p:int(p['id'][1:]))
open('properties.jsonl','w').write(''.join(json.dumps(p)+'\n' for p in props))
json.dump(s,open('tools/status.json','w'),indent=1,ensure_ascii=False);json.dump(h,open('tools/how.json','w'),indent=1,ensure_ascii=False)

#!/usr/bin/env python3
"""Append properties to /verif/properties.jsonl. stdin: python list of tuples
(title, statement, quantifier, why_tests_cant, [anchors])"""
import sys, json
p='/verif/properties.jsonl'
n=sum(1 for l in open(p) if l.strip())
items=eval(sys.stdin.read())
with open(p,'a') as f:
    for t in items:
        n+=1
        f.write(json.dumps(dict(id=f"C{n:02d}",title=t[0],statement=t[1],quantifier=t[2],why_tests_cant=t[3],anchors=t[4]))+"\n")
        print(f"C{n:02d}",t[0])

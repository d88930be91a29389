#!/usr/bin/env python3
"""Regenerates /verif/properties.jsonl from the table below (one entry per property)."""
import json, os
P = []
def p(id, title, statement, quantifier, why, anchors):
    P.append(dict(id=id, title=title, statement=statement, quantifier=quantifier,
                  why_tests_cant=why, anchors=anchors))
INF = "The input space is infinite; a test fixes finitely many inputs and says nothing about the others."
HIST = "It is an invariant of every history of messages, of any length and in any order; tests replay a handful of histories."

exec(open(os.path.join(os.path.dirname(__file__), "props_data.py")).read())

ids = [x["id"] for x in P]
assert len(set(ids)) == len(ids), "duplicate ids"
P.sort(key=lambda x: int(x["id"][1:]))
with open(os.path.join(os.path.dirname(__file__), "..", "properties.jsonl"), "w") as f:
    for x in P:
        f.write(json.dumps(x, ensure_ascii=False) + "\n")
print(len(P), "properties")

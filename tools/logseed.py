#!/usr/bin/env python3
"""Append one line to seeded/LOG.jsonl for an edit of a batch file, with the outcome given by hand.

usage: logseed.py BATCH.py NAME VERDICT 'failed theorems' 'tightened theorems' ['properties']
"""
import json, sys, runpy
batch, name, verdict, failed, tight = sys.argv[1:6]
m = [m for m in runpy.run_path(batch)['M'] if m['name'] == name][0]
props = sys.argv[6].split() if len(sys.argv) > 6 else m['props']
rec = dict(name=name, definition=m['defn'], file='lean/Verif/' + m['file'], edit=m['edit'], **{'from': m['old'], 'to': m['new']},
           claim_broken=m['claim'], properties=props, verdict=verdict, theorems_failed=['Egg.' + t for t in failed.split()],
           theorems_tightened=['Egg.' + t for t in tight.split()])
open('seeded/LOG.jsonl', 'a').write(json.dumps(rec) + '\n')

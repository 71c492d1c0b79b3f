#!/usr/bin/env python3
"""Fills section 6 of DESIGN.md from MANIFEST.json and properties.jsonl."""
import json, re, os
os.chdir(os.path.join(os.path.dirname(os.path.abspath(__file__)), '..'))
title = {}
for l in open('properties.jsonl'):
    p = json.loads(l)
    title[p['id']] = p['title']
out = []
for c in json.load(open('MANIFEST.json'))['claims']:
    if c['status'] == 'partial':
        n = c['note'].replace('The full statement is false of the code; its negation is proved. ', '')
        n = re.sub(r'(C\d+_\w+_(?:fails|partial)):', r'`\1`:', n)
        out.append(f"* **{c['property']}** ({title[c['property']]}). {n}")
s = open('DESIGN.md').read()
a, r = s.split('<!-- begin generated -->')
b = r.split('<!-- end generated -->')[1]
open('DESIGN.md', 'w').write(a + '<!-- begin generated -->\n' + '\n'.join(out) + '\n<!-- end generated -->' + b)

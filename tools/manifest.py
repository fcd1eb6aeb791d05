#!/usr/bin/env python3
"""Writes MANIFEST.json. One entry per property: status, theorems, note."""
import json,os
P='Mrc.Props.'
C={}
def add(i,st,th,note=''):
    C[i]={"property":i,"status":st,"theorems":[P+t for t in th],"note":note}
add('C01','proved',['C01_queue_is_fifo'])
add('C02','proved',['C02_capacity'])
add('C03','partial',['C03_putBytesInFront_false','C03_putBytesInFront_partial'],'false of the code: the last byte of the message is dropped; proved what it does')
add('C04','proved',['C04_byte_deque'])
add('C05','proved',['C05_decode','C05_concat'])
add('C06','proved',['C06_noise'])
add('C07','proved',['C07_case'])
add('C08','partial',['C08_comment_false','C08_comment_partial'],"false when the comment contains ':'; proved otherwise")
add('C09','partial',['C09_memory_safe_false','C09_memory_partial','C09_payload_bound'],'false of the code; exact set of unsafe streams proved')
add('C10','partial',['C10_resync_false','C10_resync_partial','C10_resync_cr'],'false after an open comment or over-long garbage; proved otherwise')
exec(open(os.path.join(os.path.dirname(__file__),'manifest_more.py')).read()) if os.path.exists(os.path.join(os.path.dirname(__file__),'manifest_more.py')) else None
json.dump({"claims":[C[k] for k in sorted(C)]},open('/verif/MANIFEST.json','w'),indent=1)

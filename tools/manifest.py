#!/usr/bin/env python3
"""Writes MANIFEST.json. Edit CL below."""
import json,os
CL=[]
def c(i,status,ths,note=""):
    CL.append({"property":i,"status":status,"theorems":ths,"note":note})
exec(open(os.path.join(os.path.dirname(__file__),"claims.py")).read())
json.dump({"claims":CL},open(os.path.join(os.path.dirname(__file__),"..","MANIFEST.json"),"w"),indent=1)

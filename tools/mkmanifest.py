#!/usr/bin/env python3
"""Writes /verif/MANIFEST.json from the table below."""
import json, os
CL = []
def c(prop, status, theorems, note):
    CL.append(dict(property=prop, status=status, theorems=theorems.split(), note=note))
X = "Wafo.Cross."
def q(ns, names): return " ".join("Wafo." + ns + "." + n for n in names.split())
c("C01", "proved", q("Cross", "C01_findcross_exact C01_findcross_empty"), "Full equivalence; the empty signal is an out-of-bounds read, shown separately.")
c("C02", "proved", q("Cross", "C02_findcross_ordered C02_findcross_fits"), "")
c("C03", "proved", q("Cross", "C03_findcross_du"), "")
c("C04", "proved", q("Cross", "C04_findcross_waves"), "")
c("C05", "partial", q("Cross", "C05_unknown_kind_partial C05_known_kind_ok C05_refuted"), "False for signals without crossings: the kind is not checked there; refutation proved.")
c("C06", "proved", q("Cross", "C06_ecross_interpolates"), "")
EXTRA = os.path.join(os.path.dirname(__file__), "manifest_extra.py")
if os.path.exists(EXTRA):
    exec(open(EXTRA).read())
CL.sort(key=lambda d: (len(d["property"]), d["property"]))
json.dump({"claims": CL}, open(os.path.join(os.path.dirname(__file__), "..", "MANIFEST.json"), "w"), indent=1)
print(len(CL))

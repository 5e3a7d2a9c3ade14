#!/usr/bin/env python3
"""Regenerate MANIFEST.json from the table below."""
import json, os
C = []
def c(prop, status, theorems, note=""):
    C.append({"property": prop, "status": status, "theorems": theorems, "note": note})
B = "Arax.Bitmap."
c("C01", "proved", [B+"C01_alloc_exact_run"])
c("C02", "proved", [B+"C02_live_disjoint", B+"C02_set_iff_live"])
c("C03", "proved", [B+"C03_accounting"])
c("C04", "partial", [B+"C04_in_bounds_partial", B+"C04_in_chunks_partial", B+"C04_single_chunk_partial", B+"C04_violated"],
  "The code violates the property when size_bits is not a multiple of 64 (C04_violated); proved for multiples of 64 and for allocations inside one chunk.")
c("C05", "proved", [B+"C05_free_exact", B+"C05_alloc_free_restores"])
c("C06", "proved", [B+"C06_fail_no_change", B+"C06_too_large_fails", B+"C06_one_page_iff", B+"C06_run_in_group_succeeds", B+"C06_fresh_complete"])
exec(open(os.path.join(os.path.dirname(__file__), "manifest_more.py")).read()) if os.path.exists(os.path.join(os.path.dirname(__file__), "manifest_more.py")) else None
C.sort(key=lambda d: d["property"])
json.dump({"claims": C}, open(os.path.join(os.path.dirname(__file__), "..", "MANIFEST.json"), "w"), indent=1)

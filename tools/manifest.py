#!/usr/bin/env python3
"""Writes MANIFEST.json; run from /verif."""
import json
C=[]
def c(i,st,th,note=""):
    C.append({"property":i,"status":st,"theorems":["Urkel."+t for t in th],"note":note})
c("C01","proved",["C01_read_your_writes"])
c("C02","proved",["C02_remove"])
c("C03","proved",["C03_has_iff_get"])
c("C04","proved",["C04_oversized"])
c("C05","proved",["C05_finite_map"])
c("C06","proved",["C06_history_independence","C06_empty_root"])
c("C07","proved",["C07_root_binds"])
c("C08","proved",["C08_reinsert"])
c("C09","proved",["C09_insert_remove"])
c("C10","proved",["C10_proof_complete"])
c("C11","proved",["C11_proof_sound"])
c("C12","proved",["C12_no_equivocation"])
c("C13","proved",["C13_verify_total"])
c("C14","proved",["C14_proof_roundtrip"])
c("C15","partial",["C15_unique_encoding_partial","C15_unique_encoding_false"],"False as stated: unused bits of the bitmap are ignored (proved by a witness). Partial: encodings of the same proof agree outside those bits.")
c("C16","partial",["C16_commit_preserves_partial","C16_commit_preserves_false"],"False for values of 256 bytes and more (urkel_node_save takes a uint8_t size): proved by a witness. Partial: holds when all values have at most 255 bytes.")
c("C17","proved",["C17_commit_publishes","C74_root","C74_fresh"],"C17_commit_publishes is under the limits of CanCommit (values of at most 255 bytes, room in the files). C74_root and C74_fresh are about every program on any directory, with values of any length: the published root and what new transactions answer agree with the committed transaction.")
c("C18","proved",["C18_isolation"])
c("C19","proved",["C19_snapshots"])
c("C20","partial",["C20_unknown_root_partial","C20_inject_unknown_false"],"False for urkel_inject: an unknown root makes urkel_store_has_history clear an uninitialised node (proved). Partial: urkel_tx_create and urkel_tx_inject.")
c("C21","proved",["C21_inject"])
c("C22","partial",["C22_clear_partial","C22_clear_false"],"False after urkel_inject: urkel_tx_clear ignores the revert flag (proved). Partial: holds when the database was not injected.")
c("C51","proved",["C51_cache"])
EXTRA="tools/manifest_extra.py"
try: exec(open(EXTRA).read())
except FileNotFoundError: pass
C.sort(key=lambda x:x["property"])
json.dump({"claims":C},open("MANIFEST.json","w"),indent=1)
print(len(C))

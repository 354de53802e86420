#!/usr/bin/env python3
"""Writes MANIFEST.json: the theorems are those named Cxx_* in lean/Verif/Props, the rest is NOTES."""
import glob, json, os, re

ROOT = os.path.dirname(os.path.dirname(os.path.abspath(__file__)))
NOTES = {
    "C02": ("partial", "False of the code for batches that straddle a branch (witnesses: a key outside the batch loses its value; a batch of distinct keys is refused as duplicate). Proved for every batch that opens every place where one of its keys belongs, and exactly these give the root of the new contents (C02_insert_exact); hence for batches that straddle no branch, batches with at most one new key, batches whose new keys share their first byte with at most one stored key, and one-byte keys; and for every accepted batch on any returned root, the keys of the batch read their new values."),
    "C04": ("partial", "False of the code once a straddling batch was accepted (witness). Proved for all versions built by batches that open every place where one of their keys belongs, across databases; an accepted insert returns the root of its contents exactly if its batch does (C04_insert_exact)."),
    "C07": ("partial", "False of the code for requests that straddle a branch (witness). Proved exactly: a stored key of a request is found if and only if the request opens its places (C07_get_exact); hence all requests that straddle no branch, requests with at most one absent key, when absent keys share their first byte with at most one stored key, and for one-byte keys."),
    "C11": ("partial", "False of the code for batches that straddle a branch (witness: refused at once, accepted one at a time). Proved exactly: one at a time succeeds in every order, and at once gives the same root if and only if the batch opens every place where one of its keys belongs (C11_batching_exact); without proviso on top of nothing."),
    "C14": ("partial", "False of the in-memory database when the unknown root is the location of a leaf the call itself writes (witness). Proved in every other case, for every database meeting the contract."),
    "C06": ("partial", "False of the code for roots built by straddling batches (witness: an overwritten value). Proved for all other versions; for every returned root: the requested keys, and every value was inserted for its key on the way to the root."),
    "C08": ("partial", "False of the code for roots built by straddling batches (witnesses: a stored key reads None; an overwritten value is read). Proved for all other versions; for every returned root: values read were inserted on the way, keys never inserted are not found."),
    "C09": ("partial", "False of the code for roots built by straddling batches (witness: get finds the value, get_one exceeds the depth limit). Proved for all other versions; for every returned root: whenever get_one answers, get of that key answers the same."),
    "C15": ("partial", "False of the code for roots built by straddling batches (witness: no proof for a stored key). Proved for all other versions; for every returned root: what get_one reads has a proof, and generated proofs verify."),
    "C16": ("partial", "False of the code for roots built by straddling batches (witness: a proof of an overwritten value verifies). Proved for all other versions; for every returned root: what verifies was inserted for the key on the way to the root."),
    "C17": ("proved", "For versions of the ledger in terms of their contents, and for every returned root in terms of the keys inserted on the way to it."),
    "C18": ("partial", "False of the code for roots built by straddling batches (witness: two proofs of one pair). Proved for all other versions."),
    "C23": ("partial", "False of the code for roots built by straddling batches (witness: 17 branches over 16-bit keys). Proved for all other versions, for every database meeting the contract."),
    "C41": ("partial", "False of the code for roots built by straddling batches (witness). Proved for all other versions."),
    "C24": ("partial", "False of the code: get and insert accept trees exactly as high as the limit, get_one and generate_inclusion_proof refuse them (general theorem and witness). Proved: all agree strictly below and strictly above the limit."),
    "C26": ("partial", "False of the code for depth limits with limit * (N + 1) above isize::MAX, under which generate_inclusion_proof always panics (C70_no_room_no_proofs, C70_false). Proved under all other limits, and without proviso for insert, remove, get, get_one and verify_inclusion_proof, for every root ever returned, including those built by straddling batches. Counters are natural numbers in the model; C71 covers 64-bit counters."),
    "C70": ("partial", "False of the code: generate_inclusion_proof reserves room for as many entries as the depth limit, and panics with capacity overflow when that is more than isize::MAX bytes (general theorem and witness). Proved for reads under all limits and for proofs under all other limits."),
    "C30": ("partial", "False of the code in general (witness proved). What is selected is stated in every case: the descendants, or all keys that share the bytes the strides reach; the former whenever the 8-bit stride reaches the byte of the split bit or no key first differs there, and always for one key."),
    "C36": ("proved", "For every root ever returned, every database meeting the contract, every failing call and every crash point (number of writes done)."),
    "C39": ("partial", "False of the code: nodes written before the failure stay (witness). Proved: nothing stored is lost or altered except in its reference count, and calls refused for the lengths of their arguments change nothing."),
    "C32": ("partial", "False of the code for roots built by straddling batches: the split index (witness). Proved: count and smallest key under every root ever returned; all of it under every version of the ledger."),
    "C19": ("partial", "False of the code: writing a branch again resets its reference count to one, after which a removal deletes nodes another live root needs (witness). Proved for all histories, with failed calls, crashes and inserts with any arguments that are refused, in which no accepted insert writes again a group of two or more pairs that a live version has, in particular when no inserted pair is already in a live version."),
    "C21": ("partial", "False of the code: inserting a pair again that a live version has leaks its data node (witness). Proved for all histories of successful calls in which no inserted pair is already in a live version."),
    "C37": ("partial", "False of the code for the same reason as C19 (witness with a crash after one write). Proved for every crash point and failing call in the histories of C19."),
    "C40": ("partial", "False of the code (witness: the history of C19). Proved: counts are exact in the histories of C21, and cover the pointers held by live versions in those of C19."),
    "C05": ("proved", "Contents as inserted for the roots of the ledger (not built by straddling batches); what is read, and the set of inserted keys, for every returned root; within and across databases."),
    "C35": ("proved", "For previous roots that were returned before; for unknown previous roots the backends differ (witness C35_unknown_roots_differ)."),
    "C43": ("proved", "For the documented bincode format; numbers of a node are u64/usize values (Fits). The proofs about the RocksDB backend use bincode extended to the unbounded numbers of the model."),
    "C44": ("proved", "For DefaultHasher, FxHasher, SeaHasher, SHA-256 and the Digest adapter. BLAKE2b takes the digest whole and panics when its length is not N. Keccak and SHA-3 fill all N bytes by squeezing and have no adapter logic."),
    "C46": ("partial", "False of insert for unsorted keys: the key slice is sorted in place, the values are not, so repeating the call stores values under the wrong keys (witness). Proved: the slice is always permuted, get can be repeated, insert with ascending keys leaves the slice alone."),
    "C47": ("partial", "False of the code after the removal of C19 damaged a live root (witness: insert fails with 'Failed to find node in database.'). Proved for the histories of C19 and batches that straddle no branch."),
    "C48": ("partial", "False of the code when an insert writes again a pair that a live version has (witness: same live contents, different databases). Proved for all histories of successful calls in which no inserted pair is already in a live version."),
    "C49": ("partial", "False of the code when the insert writes again a pair that a live version has: removing the root it returned loses nodes (witness). Proved for the histories of C21."),
    "C50": ("partial", "False of the code (witness: a removed root that is a part of a live version reads nothing, in the history of C19_false). Proved for the histories of C21."),
    "C51": ("partial", "False of the code: leaked data nodes (witness: the history of C21_false and one more insert). Proved for the histories of C21."),
    "C52": ("proved", "For every contract database, state, arguments and outcome; the bound m(8N+2), independent of the depth limit, for the histories of C21."),
    "C57": ("partial", "False of the code: Array<N> serializes as a sequence and deserializes only from a byte string, so with json, cbor, yaml, pickle and ron no branch and no leaf is ever read back; on RocksDB every returned root is unreadable (proved for all formats of this kind and all sequences of inserts; JSON and CBOR as concrete instances). Proved for data nodes, and for bincode in C43; and whatever is read says, field by field, what the node read holds."),
    "C59": ("partial", "False of the code for roots built by straddling batches, even when nothing was lost (witness). Proved for the roots of all other batches, in all histories of calls with any arguments and outcomes and with crashes; and for every returned root: what is read, proved or accepted was inserted for its key on the way to the root."),
    "C62": ("partial", "False of the code for straddling batches (witness: a key outside the batch loses its value). Proved for all other batches, in all histories of calls with any arguments and outcomes and with crashes."),
    "C63": ("partial", "False of the code for roots built by straddling batches (witness: another root is returned and the lost key stays lost). Proved for the roots of all other batches, in all histories of calls with any arguments and outcomes and with crashes."),
    "C86": ("partial", "False of RocksDB if the database is not reopened after the error (witness: the next removal writes what the refused insert queued, which brings a deleted branch back without the references it had, and removing that root again takes a key from another version). Proved for every database that shows writes at once (HashDB), with all states and later removals; for databases that queue writes: nothing shows until the next successful call (C86_refused_is_queued), and removals of live versions of careful histories do no harm (C86_removal_after_refused; C76 for whole sessions)."),
    "C65": ("proved", "For one pair; sessions with batches are C01, C15, C20. The only hypothesis on the hasher is that the data node and the leaf of the pair get different locations. RocksTree: while no call of RocksDB fails."),
    "C66": ("proved", "For all databases that meet the contract; reopening for RocksDB while none of its calls fails (crashes and failures are part of the histories of C03, C34 and others). C66_after_an_error_differs shows that the condition that the write returned Ok is needed."),
    "C33": ("proved", "For all histories of inserts and removes with any arguments and outcomes, with crashes."),
}
ths = {}
for f in sorted(glob.glob(os.path.join(ROOT, "lean/Verif/Props/*.lean"))):
    for m in re.finditer(r"^theorem ((C\d\d)_\S+)", open(f).read(), re.M):
        ths.setdefault(m.group(2), []).append("MerkleBit." + m.group(1))
ids = [json.loads(l)["id"] for l in open(os.path.join(ROOT, "properties.jsonl"))]
rows = []
for i in ids:
    if i not in ths and i not in NOTES:
        continue
    status, note = NOTES.get(i, ("proved", ""))
    rows.append(json.dumps({"property": i, "status": status, "theorems": ths.get(i, []), "note": note}))
with open(os.path.join(ROOT, "MANIFEST.json"), "w") as f:
    f.write('{"claims": [\n' + ",\n".join(rows) + "\n]}\n")

# the table at the end of DESIGN.md
titles = {json.loads(l)["id"]: json.loads(l)["title"] for l in open(os.path.join(ROOT, "properties.jsonl"))}
d = os.path.join(ROOT, "DESIGN.md")
text = open(d).read()
head = text[:text.index("## Status per property")]
files = {}
for f in sorted(glob.glob(os.path.join(ROOT, "lean/Verif/Props/*.lean"))):
    for m in re.finditer(r"^theorem (C\d\d)_", open(f).read(), re.M):
        files.setdefault(m.group(1), set()).add(os.path.basename(f))
with open(d, "w") as f:
    f.write(head + "## Status per property\n\n`MANIFEST.json` has the theorem names, and for each partial property what is missing.  A partial property is\none that the code does not have in full (`Cxx_false` is the witness).\n\n")
    f.write("| | property | status | `Props/` |\n|---|---|---|---|\n")
    for r in rows:
        r = json.loads(r)
        i = r["property"]
        f.write(f"| {i} | {titles[i]} | {r['status']} | {', '.join(sorted(x for x in files.get(i, [])))} |\n")

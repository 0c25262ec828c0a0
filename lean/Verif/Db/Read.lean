import Verif.Spec.Types

/-!
# Model of `read_conditional` (umadb-core/src/db.rs 530-825)

The snapshot a read works on is presented through the three access paths the Rust function uses:

* `scan`: everything `EventIterator` yields for a start and direction (events_tree.rs 546-770);
* `tagScan`: everything `TagsTreeIterator` yields for a tag hash (tags_tree.rs 594-900);
* `lookup`: `event_tree_lookup` (events_tree.rs 489-543).

The page-level definitions of these three are in `Verif/Page`; here they are arguments.

Cancel flag: an `AtomicBool` another thread may raise at any time is modelled by a function `c : Nat → Bool`,
the value seen by the `n`-th poll; `k` counts the polls made so far.
-/

namespace Uma.Db

abbrev TagHash := Nat

structure Snap where
  /-- The items yielded and, if the iterator then fails (unreadable page), the error. -/
  scan : Option Nat → Bool → List (Nat × Record) × Option Err
  tagScan : TagHash → Option Nat → Bool → List Nat
  lookup : Nat → Except Err Record

/-- The cancel flag as seen by successive polls. -/
abbrev Cancel := Nat → Bool

def Cancel.never : Cancel := fun _ => false

/-- db.rs 567-577: building the returned event from a record. -/
def mkSeq (pos : Nat) (r : Record) : SeqEvent := ⟨pos, r.event, r.tracking⟩

/-- `EventIterator::next_batch` (events_tree.rs 573-769) on the remaining items: up to `n` items, polling the
cancel flag before each.  An error met on the way is returned in place of the partial batch.  (Rust polls once per
visited page entry, which is at least once per item; the number of extra polls on internal pages is not modelled.) -/
def nextBatch (c : Cancel) (fin : Option Err) : (k n : Nat) → List (Nat × Record) →
    Except Err (List (Nat × Record) × List (Nat × Record) × Nat)
  | k, 0, rem => .ok ([], rem, k)
  | k, _ + 1, [] =>
    if c k then .error .cancelledByUser
    else
      match fin with
      | some e => .error e
      | none => .ok ([], [], k + 1)
  | k, n + 1, x :: rem =>
    if c k then .error .cancelledByUser
    else
      match nextBatch c fin (k + 1) n rem with
      | .error e => .error e
      | .ok (b, r, k') => .ok (x :: b, r, k')

/-- Has the optional limit been reached?  db.rs 578-581, 630-633, 817-820. -/
def limitReached (limit : Option Nat) (n : Nat) : Bool :=
  match limit with
  | some lim => decide (lim ≤ n)
  | none => false

/-- The `for (pos, rec) in batch` loops, db.rs 566-582 and 616-635: push matching events, stop at the limit.
Returns the output and whether the outer loop must stop. -/
def pushBatch (m : Record → Bool) (limit : Option Nat) :
    List (Nat × Record) → List SeqEvent → List SeqEvent × Bool
  | [], out => (out, false)
  | (pos, r) :: b, out =>
    if m r then
      let out' := out ++ [mkSeq pos r]
      if limitReached limit out'.length then (out', true) else pushBatch m limit b out'
    else pushBatch m limit b out

theorem nextBatch_length {c : Cancel} {fin : Option Err} {k n : Nat} {rem b r : List (Nat × Record)} {k' : Nat}
    (h : nextBatch c fin k n rem = .ok (b, r, k')) : b.length + r.length = rem.length := by
  induction n generalizing k rem b r k' with
  | zero => simp [nextBatch] at h; obtain ⟨rfl, rfl, rfl⟩ := h; simp
  | succ n ih =>
    cases rem with
    | nil =>
      simp only [nextBatch] at h
      split at h
      · cases h
      · cases fin <;> simp at h
        obtain ⟨rfl, rfl, _⟩ := h; rfl
    | cons x rem =>
      simp only [nextBatch] at h
      split at h
      · cases h
      · split at h
        · cases h
        · rename_i hb; cases h; have := ih hb; simp; omega

/-- The outer scan loops, db.rs 554-584 and 606-637. -/
def scanLoop (m : Record → Bool) (batch : Nat) (limit : Option Nat) (c : Cancel) (fin : Option Err) (k : Nat)
    (rem : List (Nat × Record)) (out : List SeqEvent) : Except Err (List SeqEvent) :=
  if c k then .error .cancelledByUser
  else
    match _h : nextBatch c fin (k + 1) batch rem with
    | .error e => .error e
    | .ok (b, rem', k') =>
      if _hb : b = [] then .ok out
      else
        match pushBatch m limit b out with
        | (out', true) => .ok out'
        | (out', false) => scanLoop m batch limit c fin k' rem' out'
termination_by rem.length
decreasing_by
  have := nextBatch_length _h
  have : 0 < b.length := List.length_pos_iff.mpr _hb
  omega

/-- Type test of a query item, db.rs 594-595 and 791. -/
def typeOk (it : QueryItem) (r : Record) : Bool :=
  it.types.isEmpty || it.types.any (fun t => t == r.event.eventType)

/-- Tag test of a query item on the actual event tags, db.rs 599 and 796. -/
def tagsOk (it : QueryItem) (r : Record) : Bool :=
  it.tags.all (fun t => r.event.tags.any (fun et => et == t))

/-- The closure `matches_item`, db.rs 592-605. -/
def matchesItem (items : List QueryItem) (r : Record) : Bool :=
  items.any (fun it => typeOk it r && tagsOk it r)

/-- `tag_qiis.entry(tag).or_default().push(qiid)`, db.rs 648; the hash map is an association list. -/
def addQii (tag : String) (qi : Nat) : List (String × List Nat) → List (String × List Nat)
  | [] => [(tag, [qi])]
  | (t, qs) :: m => if t = tag then (t, qs ++ [qi]) :: m else (t, qs) :: addQii tag qi m

/-- Inverting the query, db.rs 640-650: tag ↦ indices of the items requiring it. -/
def tagQiis (items : List QueryItem) : List (String × List Nat) :=
  items.zipIdx.foldl (fun m (it, qi) => it.tags.foldl (fun m t => addQii t qi m) m) []

/-- `kmerge_by` order, db.rs 699-701. -/
def before (backwards : Bool) (a b : Nat) : Bool :=
  if backwards then decide (a > b) else decide (a < b)

/-- An item of a per-tag iterator (`PositionTagQiidIterator`, db.rs 653-679): position, tag, query item indices. -/
abbrev TagItem := Nat × String × List Nat

/-- Merging step of `kmerge_by`: merge of two ordered sequences, taking from the right only when strictly before. -/
def merge2 (backwards : Bool) : List TagItem → List TagItem → List TagItem
  | [], ys => ys
  | xs, [] => xs
  | x :: xs, y :: ys =>
    if before backwards y.1 x.1 then y :: merge2 backwards (x :: xs) ys
    else x :: merge2 backwards xs (y :: ys)
termination_by xs ys => xs.length + ys.length

/-- `kmerge_by` (itertools): k-way merge.  The heap is replaced by repeated two-way merging; which of several
items with equal position comes first is unspecified in Rust and does not matter for the result. -/
def kmerge (backwards : Bool) (ls : List (List TagItem)) : List TagItem :=
  ls.foldr (merge2 backwards) []

/-- A group produced by `GroupByPositionIterator`: position, tags present, query item indices present
(hash sets as lists; only membership is used). -/
abbrev Group := Nat × List String × List Nat

/-- `GroupByPositionIterator::next` (db.rs 733-768) run to exhaustion. `cur` is the field `current_pos`, `tags` and
`qiis` the accumulated sets. -/
def groupByPos : List TagItem → (cur : Option Nat) → (tags : List String) → (qiis : List Nat) → List Group
  | [], none, _, _ => []
  | [], some p, tags, qiis => [(p, tags, qiis)]
  | (pos, tag, qs) :: l, none, tags, qiis => groupByPos l (some pos) (tag :: tags) (qs ++ qiis)
  | (pos, tag, qs) :: l, some p, tags, qiis =>
    if p ≠ pos then (p, tags, qiis) :: groupByPos l (some pos) [tag] qs
    else groupByPos l (some p) (tag :: tags) (qs ++ qiis)

/-- db.rs 778-785: items whose required tags are all present (`qi_tags[qii].is_subset(&tags_present)`). -/
def matchingQiis (items : List QueryItem) (tagsPresent : List String) (qiisPresent : List Nat) :
    List QueryItem :=
  (qiisPresent.filterMap (fun qi => items[qi]?)).filter
    (fun it => it.tags.all (fun t => tagsPresent.contains t))

/-- The tag-index loop, db.rs 771-823. -/
def tagLoop (s : Snap) (items : List QueryItem) (limit : Option Nat) (c : Cancel) :
    (k : Nat) → List Group → List SeqEvent → Except Err (List SeqEvent)
  | _, [], out => .ok out
  | k, (pos, tagsPresent, qiisPresent) :: gs, out =>
    if c k then .error .cancelledByUser
    else
      let ms := matchingQiis items tagsPresent qiisPresent
      if ms.isEmpty then tagLoop s items limit c (k + 1) gs out
      else
        match s.lookup pos with
        | .error e => .error e
        | .ok r =>
          if ms.any (fun it => typeOk it r && tagsOk it r) then
            let out' := out ++ [mkSeq pos r]
            if limitReached limit out'.length then .ok out'
            else tagLoop s items limit c (k + 1) gs out'
          else tagLoop s items limit c (k + 1) gs out

/-- Sequential scan batch size, db.rs 544. -/
def scanBatchSize : Nat := 256

/-- `read_conditional`, db.rs 532-825.  `H` is `tag_to_hash` (db.rs 959-965), here an arbitrary function; `ord` is the
unspecified iteration order of the `tag_qiis` hash map (db.rs 682). -/
def readConditional (H : String → TagHash) (ord : List (String × List Nat) → List (String × List Nat))
    (s : Snap) (q : Query) (start : Option Nat) (backwards : Bool) (limit : Option Nat)
    (forceSequential : Bool) (c : Cancel) : Except Err (List SeqEvent) :=
  if limit = some 0 then .ok []
  else if q.items.isEmpty then
    scanLoop (fun _ => true) (limit.getD scanBatchSize) limit c (s.scan start backwards).2 0
      (s.scan start backwards).1 []
  else if !(q.items.all (fun it => !it.tags.isEmpty)) || forceSequential then
    scanLoop (matchesItem q.items) scanBatchSize limit c (s.scan start backwards).2 0
      (s.scan start backwards).1 []
  else
    let iters := (ord (tagQiis q.items)).map fun (tag, qs) =>
      (s.tagScan (H tag) start backwards).map fun p => (p, tag, qs)
    tagLoop s q.items limit c 0 (groupByPos (kmerge backwards iters) none [] []) []

end Uma.Db

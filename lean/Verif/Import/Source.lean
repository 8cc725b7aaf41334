import Verif.Import.Tree

/-! # The builder's data source and the effect of one builder step -/

namespace Unixfs.Import

namespace DB

/-- Chunks not yet consumed. Used in specifications and proofs only. -/
def pend (db : DB) : List Bytes := db.nextData.toList ++ db.src

/-- A received error means the splitter is used up. Used in specifications and proofs only. -/
def Inv (db : DB) : Prop :=
  db.recvdErr.isSome → db.nextData = none ∧ db.src = [] ∧ db.recvdErr = db.srcEnd

/-- `Done()` would return false: there is data or an error to report.
Used in specifications and proofs only. -/
def More (db : DB) : Prop := ¬(db.pend = [] ∧ db.srcEnd = none)

end DB

/-- Filestore references among stored nodes. Used in specifications and proofs only. -/
def refs (l : List Built) : List (UInt64 × Node) := l.filterMap (fun b => b.pos.map (fun o => (o, b.node)))

theorem refs_append (a b : List Built) : refs (a ++ b) = refs a ++ refs b := by simp [refs]

/-- The references expected for consecutive chunks starting at `off`.
Used in specifications and proofs only. -/
def refsFrom (mk : Bytes → Node) (off : UInt64) : List Bytes → List (UInt64 × Node)
  | [] => []
  | c :: cs => (off, mk c) :: refsFrom mk (off + UInt64.ofNat c.length) cs

theorem refsFrom_append (mk : Bytes → Node) (off : UInt64) (a b : List Bytes) :
    refsFrom mk off (a ++ b) = refsFrom mk off a ++ refsFrom mk (off + UInt64.ofNat a.flatten.length) b := by
  induction a generalizing off with
  | nil => simp [refsFrom]
  | cons c cs ih => simp [refsFrom, ih, UInt64.ofNat_add, UInt64.add_assoc]

/-- Does this builder create filestore references? Used in specifications and proofs only. -/
def DB.fstore (db : DB) : Bool := db.hasPath && db.rawLeaves

/-- `db'` is `db` after consuming the chunks `cs` and storing the nodes `new`.
Used in specifications and proofs only. -/
structure Adv (db : DB) (cs : List Bytes) (new : List Built) (db' : DB) : Prop where
  maxlinks : db'.maxlinks = db.maxlinks
  rawLeaves : db'.rawLeaves = db.rawLeaves
  cidBuilder : db'.cidBuilder = db.cidBuilder
  hasPath : db'.hasPath = db.hasPath
  srcEnd : db'.srcEnd = db.srcEnd
  canGet : db'.canGet = db.canGet
  inv : db'.Inv
  pend : db.pend = cs ++ db'.pend
  lim : ∀ c ∈ cs, c.length ≤ blockSizeLimit
  added : db'.added = db.added ++ new
  offset : db'.offset = db.offset + (if db.fstore then UInt64.ofNat cs.flatten.length else 0)
  budget : db.addBudget = none → db'.addBudget = none

theorem Adv.refl (db : DB) (h : db.Inv) : Adv db [] [] db :=
  ⟨rfl, rfl, rfl, rfl, rfl, rfl, h, by simp, by simp, by simp, by simp, id⟩

theorem Adv.fstore {db db' : DB} {cs new} (a : Adv db cs new db') : db'.fstore = db.fstore := by
  simp [DB.fstore, a.hasPath, a.rawLeaves]

theorem Adv.cfg {db db' : DB} {cs new} (a : Adv db cs new db') (t : UInt32) : db'.cfg t = db.cfg t := by
  simp [DB.cfg, a.rawLeaves, a.cidBuilder]

theorem Adv.trans {a b c : DB} {cs cs' new new'} (h : Adv a cs new b) (h' : Adv b cs' new' c) :
    Adv a (cs ++ cs') (new ++ new') c where
  maxlinks := by rw [h'.maxlinks, h.maxlinks]
  rawLeaves := by rw [h'.rawLeaves, h.rawLeaves]
  cidBuilder := by rw [h'.cidBuilder, h.cidBuilder]
  hasPath := by rw [h'.hasPath, h.hasPath]
  srcEnd := by rw [h'.srcEnd, h.srcEnd]
  canGet := by rw [h'.canGet, h.canGet]
  inv := h'.inv
  pend := by rw [h.pend, h'.pend]; simp
  lim := by
    intro x hx
    rcases List.mem_append.mp hx with h1 | h1
    · exact h.lim x h1
    · exact h'.lim x h1
  added := by rw [h'.added, h.added]; simp
  offset := by
    rw [h'.offset, h.offset, h.fstore]
    split
    · simp [UInt64.ofNat_add, UInt64.add_assoc]
    · simp
  budget := fun hb => h'.budget (h.budget hb)

/-- The documented failures of an import. Used in specifications and proofs only. -/
def Fail (db : DB) (e : Err) : Prop :=
  (e = .sizeLimitExceeded ∧ ∃ c ∈ db.pend, blockSizeLimit < c.length) ∨
  (db.srcEnd = some e) ∨ (e = .addFailed ∧ db.addBudget ≠ none)

theorem Fail.of_adv {db db' : DB} {cs new e} (a : Adv db cs new db') (h : Fail db' e) : Fail db e := by
  rcases h with ⟨he, c, hc, hl⟩ | h | ⟨he, hb⟩
  · exact .inl ⟨he, c, by rw [a.pend]; simp [hc], hl⟩
  · exact .inr (.inl (by rw [← a.srcEnd]; exact h))
  · exact .inr (.inr ⟨he, fun hn => hb (a.budget hn)⟩)

/-! ### `Done`, `Next`, `Add` -/

theorem prepareNext_pend (db : DB) : db.prepareNext.pend = db.pend := by
  unfold DB.prepareNext
  split
  · rfl
  · rename_i h
    simp only [Bool.or_eq_true, not_or, Bool.not_eq_true, Option.isSome_eq_false_iff, Option.isNone_iff_eq_none] at h
    split <;> rename_i hs <;> simp [DB.pend, hs, h.1]

theorem prepareNext_inv (db : DB) (h : db.Inv) : db.prepareNext.Inv := by
  unfold DB.prepareNext
  split
  · exact h
  · rename_i hn
    simp only [Bool.or_eq_true, not_or, Bool.not_eq_true, Option.isSome_eq_false_iff, Option.isNone_iff_eq_none] at hn
    split <;> rename_i hs
    · intro hr; simp [hn.2] at hr
    · intro hr; exact ⟨rfl, hs, rfl⟩

theorem prepareNext_adv (db : DB) (h : db.Inv) : Adv db [] [] db.prepareNext := by
  have hp := prepareNext_pend db
  have hi := prepareNext_inv db h
  refine ⟨?_, ?_, ?_, ?_, ?_, ?_, hi, by simp [hp], by simp, ?_, ?_, ?_⟩ <;>
  · unfold DB.prepareNext
    split
    · simp
    · split <;> simp

theorem done_adv (db : DB) (h : db.Inv) : Adv db [] [] db.done.2 := by
  have : db.done.2 = db.prepareNext := by unfold DB.done; simp only; split <;> rfl
  rw [this]; exact prepareNext_adv db h

theorem done_iff (db : DB) (h : db.Inv) : db.done.1 = true ↔ ¬db.More := by
  unfold DB.More
  rw [not_not]
  unfold DB.done DB.prepareNext DB.pend
  by_cases hr : db.recvdErr.isSome
  · obtain ⟨a, b, c⟩ := h hr
    have hne : db.recvdErr ≠ none := Option.isSome_iff_ne_none.mp hr
    rw [← c]
    simp [a, b, hr, hne]
  · simp only [Bool.not_eq_true, Option.isSome_eq_false_iff, Option.isNone_iff_eq_none] at hr
    cases hn : db.nextData with
    | some d => simp [hr, hn]
    | none =>
      cases hs : db.src with
      | cons c cs => simp [hr]
      | nil =>
        cases he : db.srcEnd <;> simp [hr]

theorem done_more (db : DB) (h : db.Inv) : db.done.2.More ↔ db.More := by
  have a := done_adv db h
  have hp := a.pend
  unfold DB.More
  rw [a.srcEnd]; simp only [List.nil_append] at hp; rw [hp]

/-- `Next` with data pending. -/
theorem next_cons {db : DB} {c : Bytes} {cs : List Bytes} (h : db.Inv) (hp : db.pend = c :: cs) :
    ∃ db', db.next = .ok (some c, db') ∧ db'.pend = cs ∧ db'.Inv ∧ db'.maxlinks = db.maxlinks ∧
      db'.rawLeaves = db.rawLeaves ∧ db'.cidBuilder = db.cidBuilder ∧ db'.hasPath = db.hasPath ∧
      db'.srcEnd = db.srcEnd ∧ db'.canGet = db.canGet ∧ db'.added = db.added ∧ db'.offset = db.offset ∧
      db'.addBudget = db.addBudget := by
  have hr : db.recvdErr = none := by
    by_contra hne
    have := h (Option.isSome_iff_ne_none.mpr hne)
    simp [DB.pend, this.1, this.2.1] at hp
  unfold DB.next DB.prepareNext
  cases hn : db.nextData with
  | some d =>
    simp only [DB.pend, hn, Option.toList, List.cons_append, List.nil_append, List.cons.injEq] at hp
    simp only [Option.isSome_some, Bool.true_or, if_true, hr, hn, hp.1]
    exact ⟨_, rfl, by simp [DB.pend, hp.2], by intro hs; simp at hs, by simp⟩
  | none =>
    simp only [DB.pend, hn, Option.toList, List.nil_append] at hp
    simp only [hr, hp, Option.isSome_none, Bool.or_self]
    exact ⟨_, rfl, by simp [DB.pend], by intro hs; simp at hs, by simp⟩

/-- `Next` when the splitter has failed. -/
theorem next_error {db : DB} {e : Err} (h : db.Inv) (hp : db.pend = []) (he : db.srcEnd = some e) :
    db.next = .error e := by
  have hn : db.nextData = none := by
    simp only [DB.pend, List.append_eq_nil_iff, Option.toList_eq_nil_iff] at hp; exact hp.1
  have hs : db.src = [] := by simp only [DB.pend, List.append_eq_nil_iff] at hp; exact hp.2
  unfold DB.next DB.prepareNext
  by_cases hr : db.recvdErr.isSome
  · have := (h hr).2.2
    rw [he] at this
    simp [this]
  · simp only [Bool.not_eq_true, Option.isSome_eq_false_iff, Option.isNone_iff_eq_none] at hr
    simp [hn, hs, hr, he]

theorem add_spec (db : DB) (b : Built) (h : db.Inv) :
    (∃ db', db.add b = .ok db' ∧ Adv db [] [b] db') ∨ (db.add b = .error .addFailed ∧ db.addBudget ≠ none) := by
  unfold DB.add
  split
  · rename_i hb
    exact .inl ⟨_, rfl, ⟨rfl, rfl, rfl, rfl, rfl, rfl, h, by simp [DB.pend], by simp, rfl, by simp, by simp⟩⟩
  · rename_i hb; exact .inr ⟨rfl, by simp [hb]⟩
  · rename_i k hb
    exact .inl ⟨_, rfl, ⟨rfl, rfl, rfl, rfl, rfl, rfl, h, by simp [DB.pend], by simp, rfl, by simp, by simp [hb]⟩⟩

/-- The leaf builders agree. -/
theorem newLeafNode_eq (db : DB) (c : Bytes) (t : UInt32) :
    db.newLeafNode (some c) t =
      if blockSizeLimit < c.length then .error .sizeLimitExceeded else .ok ((db.cfg t).leafNode c) := by
  unfold DB.newLeafNode
  simp only [Option.getD_some, gt_iff_lt]
  split
  · rfl
  · unfold Cfg.leafNode DB.cfg
    by_cases hr : db.rawLeaves
    · simp only [hr, if_true, DB.rawNode]
      cases db.cidBuilder <;> rfl
    · simp only [hr]
      rw [FSN.commit_of_typ _ (by rfl)]
      rfl

/-- What building a child must deliver. `P t m` is the shape of the child `t`, where `m` says whether
data remains afterwards. Used in specifications and proofs only. -/
def ChildOK (lt : UInt32) (P : T → Prop → Prop) (db : DB) : Except Err ((Built × UInt64) × DB) → Prop
  | .ok ((b, sz), db') => ∃ t cs new, Adv db cs new db' ∧ b.node = t.toNode (db.cfg lt) ∧ sz = t.size ∧
      t.chunks = cs ∧ cs ≠ [] ∧ P t db'.More ∧ new.map Built.node ++ [b.node] = t.nodes (db.cfg lt) ∧
      refs (new ++ [b]) = (if db.fstore then refsFrom (db.cfg lt).leafNode db.offset cs else [])
  | .error e => Fail db e

theorem newLeafDataNode_spec (db : DB) (lt : UInt32) (h : db.Inv) (hm : db.More) :
    ChildOK lt (fun t _ => ∃ c, t = .leaf c) db (db.newLeafDataNode lt) := by
  unfold DB.newLeafDataNode
  cases hp : db.pend with
  | nil =>
    cases he : db.srcEnd with
    | none => exact absurd ⟨hp, he⟩ hm
    | some e =>
      rw [next_error h hp he]
      exact .inr (.inl he)
  | cons c cs =>
    obtain ⟨db1, hn, hp1, hi1, h1, h2, h3, h4, h5, h6, h7, h8, h9⟩ := next_cons h hp
    simp only [hn, newLeafNode_eq]
    have hcfg : db1.cfg lt = db.cfg lt := by simp [DB.cfg, h2, h3]
    by_cases hl : blockSizeLimit < c.length
    · simp only [hl, if_true]
      exact .inl ⟨rfl, c, by rw [hp]; simp, hl⟩
    · simp only [hl, if_false, hcfg]
      have hraw : ((db.cfg lt).leafNode c).isRaw = db.rawLeaves := by
        unfold Cfg.leafNode DB.cfg
        cases db.rawLeaves
        · rfl
        · cases db.cidBuilder <;> rfl
      by_cases hf : db.fstore
      · have hc : (db1.hasPath && ((db.cfg lt).leafNode c).isRaw) = true := by
          rw [hraw, h4]; exact hf
        simp only [DB.processFileStore, hc, if_true, Option.getD_some]
        refine ⟨.leaf c, [c], [], ⟨h1, h2, h3, h4, h5, h6, hi1, ?_, ?_, ?_, ?_, ?_⟩, rfl, ?_, rfl, by simp, ⟨c, rfl⟩, ?_, ?_⟩
        · rw [hp]; simp only [DB.pend] at hp1 ⊢; rw [hp1]; rfl
        · intro x hx; simp only [List.mem_singleton] at hx; subst hx; omega
        · simp [h7]
        · simp [hf, h8]
        · intro hb; simp [h9, hb]
        · simp [T.size, T.chunks]
        · simp [T.nodes]
        · simp [refs, refsFrom, hf, h8]
      · have hc : (db1.hasPath && ((db.cfg lt).leafNode c).isRaw) = false := by
          rw [hraw, h4]; simpa [DB.fstore] using hf
        simp only [DB.processFileStore, hc, Option.getD_some]
        refine ⟨.leaf c, [c], [], ⟨h1, h2, h3, h4, h5, h6, hi1, ?_, ?_, ?_, ?_, ?_⟩, rfl, ?_, rfl, by simp, ⟨c, rfl⟩, ?_, ?_⟩
        · rw [hp]; simp only [DB.pend] at hp1 ⊢; simp only [Bool.false_eq_true, if_false]; rw [hp1]; rfl
        · intro x hx; simp only [List.mem_singleton] at hx; subst hx; omega
        · simp [h7]
        · simp [hf, h8]
        · intro hb; simp [h9, hb]
        · simp [T.size, T.chunks]
        · simp [T.nodes]
        · simp [refs, hf]

/-! ### The child-adding loop -/

/-- Every tree but the last satisfies `P t True`, the last satisfies `P t m`.
Used in specifications and proofs only. -/
def ListP (P : T → Prop → Prop) : List T → Prop → Prop
  | [], _ => True
  | [t], m => P t m
  | t :: t' :: ts, m => P t True ∧ ListP P (t' :: ts) m

theorem listP_cons (P : T → Prop → Prop) (t : T) (ts : List T) (m : Prop)
    (h1 : if ts = [] then P t m else P t True) (h2 : ListP P ts m) : ListP P (t :: ts) m := by
  cases ts with
  | nil => simpa [ListP] using h1
  | cons t' ts => exact ⟨by simpa using h1, h2⟩

/-- Result of the loop run with room for `k` more children. Used in specifications and proofs only. -/
def LoopOK (lt : UInt32) (P : T → Prop → Prop) (k : Nat) (fsn : FSN) (db : DB) : Except Err (FSN × DB) → Prop
  | .ok (fsn', db') => ∃ ts cs new, Adv db cs new db' ∧ fsn' = fsn.addTrees (db.cfg lt) ts ∧
      T.chunksL ts = cs ∧ ts.length ≤ k ∧ (ts.length = k ∨ ¬db'.More) ∧ (k ≠ 0 → db.More → ts ≠ []) ∧ (db.More ∨ ts = []) ∧
      ListP P ts db'.More ∧
      new.map Built.node = T.nodesL (db.cfg lt) ts ∧
      refs new = (if db.fstore then refsFrom (db.cfg lt).leafNode db.offset cs else [])
  | .error e => Fail db e

theorem fillLoop_spec (lt : UInt32) (P : T → Prop → Prop)
    (child : DB → Except Err ((Built × UInt64) × DB))
    (R : DB → Prop) (hR : ∀ {db cs new db'}, R db → Adv db cs new db' → R db')
    (hchild : ∀ db, R db → db.Inv → db.More → ChildOK lt P db (child db))
    (hPmono : ∀ t (m : Prop), m → P t m → P t True)
    (k : Nat) (fsn : FSN) (db : DB) (hr : R db) (hi : db.Inv) :
    LoopOK lt P k fsn db (Balanced.fillLoop child k fsn db) := by
  induction k generalizing fsn db with
  | zero =>
    exact ⟨[], [], [], Adv.refl db hi, (FSN.addTrees_nil _ _).symm, rfl, by simp, by simp, by simp, .inr rfl, trivial,
      by simp [T.nodesL], by simp [refs, refsFrom]⟩
  | succ k ih =>
    unfold Balanced.fillLoop
    have ha := done_adv db hi
    have hd := done_iff db hi
    have hdm := done_more db hi
    cases hdn : db.done with
    | mk b db1 =>
      rw [hdn] at ha hd hdm
      cases b with
      | true =>
        have hnm : ¬db.More := hd.mp rfl
        simp only
        exact ⟨[], [], [], ha, (FSN.addTrees_nil _ _).symm, rfl, by simp, .inr (by rw [hdm]; exact hnm),
          fun _ hm => absurd hm hnm, .inr rfl, trivial, by simp [T.nodesL], by simp [refs, refsFrom]⟩
      | false =>
        have hm : db.More := by
          by_contra hn; exact absurd (hd.mpr hn) (by simp)
        simp only
        have hc := hchild db1 (hR hr ha) ha.inv (hdm.mpr hm)
        cases hch : child db1 with
        | error e => rw [hch] at hc; exact Fail.of_adv ha hc
        | ok q =>
          obtain ⟨⟨b, sz⟩, db2⟩ := q
          rw [hch] at hc
          obtain ⟨t, cs, new, hadv, hnode, hsz, hchunks, hcs, hP, hnodes, hrefs⟩ := hc
          simp only [FSN.addChild]
          have hadv12 := ha.trans hadv
          rcases add_spec db2 b hadv.inv with ⟨db3, h3, hadd⟩ | ⟨h3, hb⟩
          · simp only [h3]
            have hadv13 := hadv12.trans hadd
            have hcfg1 : db1.cfg lt = db.cfg lt := ha.cfg lt
            have hcfg3 : db3.cfg lt = db.cfg lt := hadv13.cfg lt
            have hrec := ih { fsn with links := fsn.links ++ [makeLink [] b.node], file := fsn.file.addBlockSize sz }
              db3 (hR hr hadv13) hadd.inv
            have hone : ({ fsn with links := fsn.links ++ [makeLink [] b.node], file := fsn.file.addBlockSize sz } : FSN)
                = fsn.addTrees (db.cfg lt) [t] := by
              simp [FSN.addTrees, T.toLinks, addSizes, hnode, hsz, hcfg1]
            rw [hone] at hrec ⊢
            cases hres : Balanced.fillLoop child k (fsn.addTrees (db.cfg lt) [t]) db3 with
            | error e => rw [hres] at hrec; exact Fail.of_adv hadv13 hrec
            | ok q =>
              obtain ⟨fsn', db'⟩ := q
              rw [hres] at hrec
              obtain ⟨ts, cs', new', hadv', hfsn, hch', hlen, hor, hne, hmt, hLP, hnodes', hrefs'⟩ := hrec
              have hm32 : db3.More ↔ db2.More := by
                have := hadd.pend
                unfold DB.More; rw [hadd.srcEnd]; simp only [List.nil_append] at this; rw [this]
              refine ⟨t :: ts, cs ++ cs', (new ++ [b]) ++ new', ?_, ?_, ?_, ?_, ?_, by simp, .inl hm, ?_, ?_, ?_⟩
              · simpa using hadv13.trans hadv'
              · rw [hfsn, hcfg3, ← FSN.addTrees_append]; rfl
              · simp [T.chunksL, hchunks, hch']
              · simp; omega
              · rcases hor with h | h
                · left; simp [h]
                · exact .inr h
              · refine listP_cons P t ts _ ?_ hLP
                split
                · rename_i hts
                  subst hts
                  -- nothing was added afterwards, so the remaining data is unchanged
                  have hcs' : cs' = [] := by rw [← hch']; rfl
                  have hmm : db'.More ↔ db2.More := by
                    rw [← hm32]
                    have := hadv'.pend
                    rw [hcs'] at this
                    unfold DB.More; rw [hadv'.srcEnd]; simp only [List.nil_append] at this; rw [this]
                  rw [propext hmm]; exact hP
                · rename_i hts
                  have hm2 : db2.More := hm32.mp (hmt.resolve_right hts)
                  exact hPmono t _ hm2 hP
              · rw [List.map_append, hnodes']
                simp only [List.map_append, List.map_cons, List.map_nil, T.nodesL]
                rw [hnodes, hcfg1, hcfg3]
              · rw [refs_append, hrefs, hrefs', ha.fstore, hadv13.fstore]
                by_cases hf : db.fstore
                · simp only [hf, if_true, hcfg1, hcfg3]
                  rw [refsFrom_append, hadv13.offset, ha.offset]
                  simp [hf]
                · simp [hf]
          · simp only [h3]
            exact .inr (.inr ⟨rfl, fun hn => hb (hadv12.budget hn)⟩)

/-- `FillNodeLayer`'s loop and the trickle repeat loop are instances of `fillLoop`. -/
theorem fillLayerLoop_eq (k : Nat) (fsn : FSN) (db : DB) :
    DB.fillLayerLoop k fsn db = Balanced.fillLoop (fun db => db.newLeafDataNode TRaw) k fsn db := by
  induction k generalizing fsn db with
  | zero => rfl
  | succ k ih => unfold DB.fillLayerLoop Balanced.fillLoop; simp only [ih]; rfl

/-- Used in specifications and proofs only. -/
def wrapSub (sub : DB → Except Err ((Node × UInt64) × DB)) (db : DB) : Except Err ((Built × UInt64) × DB) :=
  match sub db with
  | .error e => .error e
  | .ok ((c, sz), db) => .ok ((⟨c, none⟩, sz), db)

theorem repeatLoop_eq (sub : DB → Except Err ((Node × UInt64) × DB)) (k : Nat) (fsn : FSN) (db : DB) :
    Trickle.repeatLoop sub k fsn db = Balanced.fillLoop (wrapSub sub) k fsn db := by
  induction k generalizing fsn db with
  | zero => rfl
  | succ k ih =>
    unfold Trickle.repeatLoop Balanced.fillLoop
    cases db.done with
    | mk b db1 =>
      cases b with
      | true => rfl
      | false =>
        simp only [wrapSub]
        cases sub db1 with
        | error e => rfl
        | ok q =>
          obtain ⟨⟨c, sz⟩, db2⟩ := q
          simp only [ih]
          cases fsn.addChild { node := c } sz db2 <;> rfl

end Unixfs.Import

import Verif.Dbus.ModelWords
import Verif.Dbus.LemmasReads
import Verif.Dbus.PropsCursor
/-! # Lemmas: the memory of D-Bus signatures -/
namespace Verif.Dbus

/-! ## Nodes fit their fields -/

/-- The fields of the node have the values that are stored. -/
structure Node.Fits (k : Kind) (n : Node) : Prop where
  o : n.offset ≤ k.lengthMax
  p : n.position ≤ k.lengthMax
  l : n.length ≤ k.lengthMax
  dv : n.dvarSize ≤ k.max
  gv : n.gvarSize ≤ k.max

theorem mkN_fits (k : Kind) (e : Element) {o p : Nat} (ho : o ≤ k.lengthMax) (hp : p ≤ k.lengthMax) : (mkN k e o p).Fits k := by
  have h := el_sizes e
  have h2 : 1 ≤ k.lengthMax := by cases k <;> decide
  have h3 := lengthMax_max k
  exact ⟨ho, hp, h2, by show e.dvarSize ≤ _; omega, by show e.gvarSize ≤ _; omega⟩

mutual
theorem headN_place (k : Kind) : (t : Ty) → (o p : Nat) → (headN k t o p).offset = o ∧ (headN k t o p).position = p
  | .basic _, _, _ => ⟨rfl, rfl⟩
  | .variant, _, _ => ⟨rfl, rfl⟩
  | .array _, _, _ => by rw [headN]; exact ⟨rfl, rfl⟩
  | .maybe _, _, _ => by rw [headN]; exact ⟨rfl, rfl⟩
  | .struct ts, o, p => by rw [headN]; exact foldN_place k ts (mkN k .structOpen o p) 1 0
  | .dict _ _, _, _ => by rw [headN]; exact ⟨rfl, rfl⟩
theorem foldN_place (k : Kind) : (ts : List Ty) → (up : Node) → (o p : Nat) →
    (foldN k up ts o p).offset = up.offset ∧ (foldN k up ts o p).position = up.position
  | [], _, _, _ => by rw [foldN]; exact ⟨rfl, rfl⟩
  | t :: ts, up, o, p => by rw [foldN]; exact foldN_place k ts (addN up (headN k t o p)) _ _
end

theorem headN_fits (k : Kind) (t : Ty) {o p : Nat} (ho : o ≤ k.lengthMax) (hp : p ≤ k.lengthMax) (ht : t.size ≤ k.lengthMax) :
    (headN k t o p).Fits k := by
  have h1 := headN_place k t o p
  have h2 := headN_sizes k t o p
  have h3 := lengthMax_max k
  exact ⟨by omega, by omega, by rw [headN_length]; exact ht, by omega, by omega⟩

theorem liftN_fits {k : Kind} {n : Node} (h : n.Fits k) : (liftN n).Fits k := ⟨h.o, h.p, h.l, h.dv, h.gv⟩

theorem closeN_fits (k : Kind) (d : Bool) {o p : Nat} (ho : o ≤ k.lengthMax) (hp : p ≤ k.lengthMax) : (closeN k d o p).Fits k := by
  have h := mkN_fits k (if d then .dictClose else .structClose) ho hp
  unfold closeN
  simp only []
  split
  · exact ⟨h.o, h.p, h.l, h.dv, h.gv⟩
  · exact h

theorem length_le_sizes : (ts : List Ty) → ts.length ≤ sizes ts
  | [] => Nat.zero_le _
  | t :: ts => by
    have := length_le_sizes ts
    have := size_pos t
    rw [sizes_cons, List.length_cons]
    omega

mutual
theorem tailN_fits (k : Kind) : (t : Ty) → t.size ≤ k.lengthMax → ∀ n ∈ tailN k t, n.Fits k
  | .basic _, _, n, hn => by simp [tailN] at hn
  | .variant, _, n, hn => by simp [tailN] at hn
  | .array t, ht, n, hn => by
    rw [size_array] at ht
    rw [tailN, List.mem_cons] at hn
    rcases hn with rfl | hn
    · exact liftN_fits (headN_fits k t (by omega) (Nat.zero_le _) (by omega))
    · exact tailN_fits k t (by omega) n hn
  | .maybe t, ht, n, hn => by
    rw [size_maybe] at ht
    rw [tailN, List.mem_cons] at hn
    rcases hn with rfl | hn
    · exact liftN_fits (headN_fits k t (by omega) (Nat.zero_le _) (by omega))
    · exact tailN_fits k t (by omega) n hn
  | .struct ts, ht, n, hn => by
    rw [size_struct] at ht
    have := length_le_sizes ts
    rw [tailN, List.mem_append, List.mem_singleton] at hn
    rcases hn with hn | rfl
    · exact kidsN_fits k ts 1 0 (by omega) (by omega) n hn
    · exact closeN_fits k _ (by omega) (by omega)
  | .dict b v, ht, n, hn => by
    rw [size_dict] at ht
    have := size_pos v
    rw [tailN, List.mem_append, List.mem_singleton, List.mem_cons, List.mem_cons] at hn
    rcases hn with (rfl | rfl | hn) | rfl
    · exact liftN_fits (mkN_fits k _ (by omega) (Nat.zero_le _))
    · exact liftN_fits (headN_fits k v (by omega) (by omega) (by omega))
    · exact tailN_fits k v (by omega) n hn
    · exact closeN_fits k _ (by omega) (by omega)
theorem kidsN_fits (k : Kind) : (ts : List Ty) → (o p : Nat) → o + sizes ts ≤ k.lengthMax → p + ts.length ≤ k.lengthMax →
    ∀ n ∈ kidsN k ts o p, n.Fits k
  | [], _, _, _, _, n, hn => by simp [kidsN] at hn
  | t :: ts, o, p, ho, hp, n, hn => by
    rw [sizes_cons] at ho
    rw [List.length_cons] at hp
    rw [kidsN, List.mem_append, List.mem_cons] at hn
    rcases hn with (rfl | hn) | hn
    · exact liftN_fits (headN_fits k t (by omega) (by omega) (by omega))
    · exact tailN_fits k t (by omega) n hn
    · exact kidsN_fits k ts _ _ (by omega) (by omega) n hn
end

theorem view_fits {s : Sig} {t : Ty} (h : View s t) : ∀ n ∈ s.nodes, n.Fits s.kind := by
  induction h with
  | @parsed s t h hs =>
    rw [maxLength_eq, bytes_length] at h
    rw [new_bytes t h, Res.ok.injEq] at hs
    subst hs
    intro n hn
    have hk := kindFor_le h
    simp only [ofTy, List.mem_cons] at hn
    rcases hn with rfl | hn
    · exact headN_fits _ t (Nat.zero_le _) (Nat.zero_le _) hk
    · exact tailN_fits _ t hk n hn
  | @sub s s' t u i h ho hs ih =>
    unfold Sig.at_ at hs
    simp only [h.rep.node_at, Option.bind_eq_bind, Option.bind_some] at hs
    split at hs
    · cases hs
    · split at hs
      · cases hs
      · split at hs
        · cases hs
          intro n hn
          exact ih n (List.mem_of_mem_drop (List.mem_of_mem_take hn))
        · cases hs

/-! ## Nodes are read as they were written -/

theorem fieldAt_en {be : Bool} {pre post : List UInt8} {w v a : Nat} (ha : pre.length = a) (hv : v < 256 ^ w) :
    fieldAt be a w (pre ++ (enNum be w v ++ post)) = v := by
  unfold fieldAt
  rw [List.drop_left' ha, List.take_left' (enNum_length be w v), deNum_enNum be w v hv]

theorem bytes_length' {be : Bool} {k : Kind} {n : Node} {bs : List UInt8} (h : n.bytes be k = some bs) : bs.length = 8 * k.coeff := by
  cases k with
  | node8 =>
    obtain ⟨v, -, rfl⟩ := Option.map_eq_some_iff.mp h
    simp only [List.length_append, enNum_length]
    rfl
  | node64 =>
    cases h
    simp only [List.length_append, enNum_length]
    rfl

theorem fits_bytes (be : Bool) {k : Kind} {n : Node} (h : n.Fits k) : ∃ bs, n.bytes be k = some bs ∧ Node.ofBytes be k bs = n
    ∧ BitVec.ofNat 32 (deNum be (bs.take 4)) = n.flags := by
  have hfl : n.flags.toNat < 256 ^ 4 := n.flags.isLt
  have flag : ∀ post, fieldAt be 0 4 (enNum be 4 n.flags.toNat ++ post) = n.flags.toNat := fun post => fieldAt_en (pre := []) rfl hfl
  have flag' : ∀ post, deNum be ((enNum be 4 n.flags.toNat ++ post).take 4) = n.flags.toNat := flag
  obtain ⟨f, o, p, l, dv, gv⟩ := n
  cases k with
  | node8 =>
    have hp := pack_ok .node8 h.o h.p h.l
    have hdv : dv < 256 ^ 1 := Nat.lt_succ_of_le h.dv
    have hgv : gv < 256 ^ 1 := Nat.lt_succ_of_le h.gv
    obtain ⟨v, hv, hr⟩ := Option.map_eq_some_iff.mp hp
    simp only [Prod.mk.injEq] at hr
    have hvl : v.toNat < 256 ^ 2 := v.isLt
    refine ⟨_, by rw [Node.bytes, hv]; rfl, ?_, ?_⟩
    · simp only [List.append_assoc, Node.ofBytes]
      have e1 : fieldAt be 4 2 (enNum be 4 f.toNat ++ (enNum be 2 v.toNat ++ (enNum be 1 dv ++ enNum be 1 gv))) = v.toNat :=
        fieldAt_en (enNum_length be 4 _) hvl
      have e2 : fieldAt be 6 1 (enNum be 4 f.toNat ++ (enNum be 2 v.toNat ++ (enNum be 1 dv ++ enNum be 1 gv))) = dv := by
        rw [← List.append_assoc]
        exact fieldAt_en (by simp only [List.length_append, enNum_length]) hdv
      have e3 : fieldAt be 7 1 (enNum be 4 f.toNat ++ (enNum be 2 v.toNat ++ (enNum be 1 dv ++ enNum be 1 gv))) = gv := by
        have := fieldAt_en (be := be) (pre := enNum be 4 f.toNat ++ enNum be 2 v.toNat ++ enNum be 1 dv) (post := []) (a := 7) (by simp only [List.length_append, enNum_length]) hgv
        simpa only [List.append_assoc, List.append_nil] using this
      rw [e1, e2, e3, flag, BitVec.ofNat_toNat, BitVec.ofNat_toNat, BitVec.setWidth_eq, BitVec.setWidth_eq, hr.1, hr.2.1, hr.2.2]
    · simp only [List.append_assoc]
      rw [flag', BitVec.ofNat_toNat, BitVec.setWidth_eq]
  | node64 =>
    have hm : Kind.node64.lengthMax < 256 ^ 8 := by decide
    have hx : Kind.node64.max < 256 ^ 8 := by decide
    refine ⟨_, rfl, ?_, ?_⟩
    · have e (pre post : List UInt8) (a v : Nat) (ha : pre.length = a) (hv : v < 256 ^ 8) : fieldAt be a 8 (pre ++ (enNum be 8 v ++ post)) = v := fieldAt_en ha hv
      have e1 := e (enNum be 4 f.toNat ++ enNum be 4 0) (enNum be 8 p ++ enNum be 8 l ++ enNum be 8 dv ++ enNum be 8 gv) 8 o
        (by simp only [List.length_append, enNum_length]) (Nat.lt_of_le_of_lt h.o hm)
      have e2 := e (enNum be 4 f.toNat ++ enNum be 4 0 ++ enNum be 8 o) (enNum be 8 l ++ enNum be 8 dv ++ enNum be 8 gv) 16 p
        (by simp only [List.length_append, enNum_length]) (Nat.lt_of_le_of_lt h.p hm)
      have e3 := e (enNum be 4 f.toNat ++ enNum be 4 0 ++ enNum be 8 o ++ enNum be 8 p) (enNum be 8 dv ++ enNum be 8 gv) 24 l
        (by simp only [List.length_append, enNum_length]) (Nat.lt_of_le_of_lt h.l hm)
      have e4 := e (enNum be 4 f.toNat ++ enNum be 4 0 ++ enNum be 8 o ++ enNum be 8 p ++ enNum be 8 l) (enNum be 8 gv) 32 dv
        (by simp only [List.length_append, enNum_length]) (Nat.lt_of_le_of_lt h.dv hx)
      have e5 := e (enNum be 4 f.toNat ++ enNum be 4 0 ++ enNum be 8 o ++ enNum be 8 p ++ enNum be 8 l ++ enNum be 8 dv) [] 40 gv
        (by simp only [List.length_append, enNum_length]) (Nat.lt_of_le_of_lt h.gv hx)
      simp only [List.append_assoc, List.append_nil] at e1 e2 e3 e4 e5
      simp only [List.append_assoc, Node.ofBytes]
      rw [e1, e2, e3, e4, e5, flag, BitVec.ofNat_toNat, BitVec.setWidth_eq]
    · simp only [List.append_assoc]
      rw [flag', BitVec.ofNat_toNat, BitVec.setWidth_eq]

/-! ## Arrays of nodes -/

theorem nodes_bytes (be : Bool) {k : Kind} : ∀ (ns : List Node), (∀ n ∈ ns, n.Fits k) → ∃ bs, nodesBytes be k ns = some bs
    ∧ bs.length = 8 * (k.coeff * ns.length) ∧ ∀ i, ns[i]? = (if i < ns.length then some (Node.ofBytes be k ((bs.drop (8 * (k.coeff * i))).take (8 * k.coeff))) else none)
  | [], _ => ⟨[], rfl, rfl, fun i => by simp⟩
  | n :: ns, h => by
    obtain ⟨a, ha, hn, -⟩ := fits_bytes be (h n (List.mem_cons_self ..))
    obtain ⟨b, hb, hl, hi⟩ := nodes_bytes be ns fun m hm => h m (List.mem_cons_of_mem _ hm)
    have hal := bytes_length' ha
    refine ⟨a ++ b, by rw [nodesBytes, ha, hb]; rfl, ?_, ?_⟩
    · rw [List.length_append, List.length_cons, hal, hl, Nat.mul_add, Nat.mul_add, Nat.mul_one]
      omega
    · intro i
      cases i with
      | zero =>
        rw [if_pos (show 0 < (n :: ns).length from Nat.zero_lt_succ _), Nat.mul_zero, Nat.mul_zero, List.drop_zero, List.take_left' hal, hn]
        rfl
      | succ i =>
        rw [List.getElem?_cons_succ, hi i]
        have e : 8 * (k.coeff * (i + 1)) = a.length + 8 * (k.coeff * i) := by rw [hal, Nat.mul_add, Nat.mul_add, Nat.mul_one]; omega
        rw [e, List.drop_append, List.drop_of_length_le (l := a) (Nat.le_add_right ..), List.nil_append, Nat.add_sub_cancel_left]
        simp only [List.length_cons, Nat.add_lt_add_iff_right]

theorem nodes_append (be : Bool) (k : Kind) : ∀ (l m : List Node), nodesBytes be k (l ++ m) = (nodesBytes be k l).bind fun a => (nodesBytes be k m).map fun b => a ++ b
  | [], m => by cases h : nodesBytes be k m <;> simp [nodesBytes, h]
  | n :: l, m => by
    rw [List.cons_append, nodesBytes, nodesBytes, nodes_append be k l m]
    cases n.bytes be k with
    | none => rfl
    | some a => cases nodesBytes be k l with
      | none => rfl
      | some b => cases nodesBytes be k m <;> simp

theorem nodes_part (be : Bool) {k : Kind} {ns : List Node} (h : ∀ n ∈ ns, n.Fits k) {bs : List UInt8} (hb : nodesBytes be k ns = some bs) (i m : Nat)
    (hi : i + m ≤ ns.length) : nodesBytes be k ((ns.drop i).take m) = some ((bs.drop (8 * (k.coeff * i))).take (8 * (k.coeff * m))) := by
  have e : ns = ns.take i ++ ((ns.drop i).take m ++ (ns.drop i).drop m) := by rw [List.take_append_drop, List.take_append_drop]
  have h1 : ∀ n ∈ ns.take i, n.Fits k := fun n hn => h n (List.mem_of_mem_take hn)
  have h2 : ∀ n ∈ (ns.drop i).take m, n.Fits k := fun n hn => h n (List.mem_of_mem_drop (List.mem_of_mem_take hn))
  have h3 : ∀ n ∈ (ns.drop i).drop m, n.Fits k := fun n hn => h n (List.mem_of_mem_drop (List.mem_of_mem_drop hn))
  obtain ⟨a, ha, la, -⟩ := nodes_bytes be _ h1
  obtain ⟨b, hb', lb, -⟩ := nodes_bytes be _ h2
  obtain ⟨c, hc, -, -⟩ := nodes_bytes be _ h3
  rw [List.length_take, Nat.min_eq_left (by omega)] at la
  rw [List.length_take, List.length_drop, Nat.min_eq_left (by omega)] at lb
  rw [e, nodes_append, nodes_append, ha, hb', hc] at hb
  cases hb
  rw [hb', List.drop_left' la, List.take_left' lb]

/-! ## Memory -/

theorem view_flag {s : Sig} {t : Ty} (h : View s t) : ∃ n l, s.nodes = n :: l ∧ FlagSet.node n.flags = s.kind.id ∧ s.nodes.length ≤ s.kind.lengthMax := by
  obtain ⟨n, hn, hc, hl⟩ := h.rep.split
  refine ⟨n, _, hn, ?_, ?_⟩
  · have q := h.rep.node_at 0
    unfold Sig.node_at Sig.flags at q
    rw [hn] at q
    simp only [List.getElem?_cons_zero, Option.map_some, Option.bind_eq_bind, Option.bind_some] at q
    split at q
    · assumption
    · cases q
  · have hf := view_fits h n (by rw [hn]; exact List.mem_cons_self ..)
    have := hf.l
    rw [hn, List.length_cons, tailN_length]
    have := size_pos t
    omega

/-- What is in the memory of a signature. -/
theorem view_store (be : Bool) {s : Sig} {t : Ty} (h : View s t) : ∃ bs, nodesBytes be s.kind s.nodes = some bs
    ∧ bs.length = 8 * s.words ∧ (Store.mk be bs).words = s.words ∧ (Store.mk be bs).flags = s.flags ∧ (Store.mk be bs).derive s.kind = s.nodes := by
  obtain ⟨bs, hb, hl, hi⟩ := nodes_bytes be s.nodes (view_fits h)
  have hw : (Store.mk be bs).words = s.words := by
    unfold Store.words Sig.words
    rw [hl, Nat.mul_div_cancel_left _ (by decide)]
  refine ⟨bs, hb, hl, hw, ?_, ?_⟩
  · obtain ⟨n, l, hn, -, -⟩ := view_flag h
    have hpos : 0 < (Store.mk be bs).words := by
      rw [hw]
      unfold Sig.words
      rw [hn]
      exact Nat.mul_pos (coeff_pos _) (Nat.zero_lt_succ _)
    unfold Store.flags
    rw [if_pos hpos]
    obtain ⟨a, ha, -, hf⟩ := fits_bytes be (view_fits h n (by rw [hn]; exact List.mem_cons_self ..))
    rw [hn, nodesBytes, ha] at hb
    obtain ⟨b, -, rfl⟩ := Option.map_eq_some_iff.mp hb
    unfold Sig.flags
    rw [hn]
    have := bytes_length' ha
    have := coeff_pos s.kind
    rw [List.take_append_of_le_length (by omega), hf]
    rfl
  · unfold Store.derive
    rw [hw]
    unfold Sig.words
    rw [Nat.mul_div_cancel_left _ (coeff_pos _)]
    apply List.ext_getElem?
    intro i
    rw [hi i, List.getElem?_map]
    by_cases hlt : i < s.nodes.length
    · rw [if_pos hlt, List.getElem?_range hlt]
      rfl
    · rw [if_neg hlt, List.getElem?_eq_none (by rw [List.length_range]; omega)]
      rfl

theorem store_eq {be : Bool} {s : Sig} {r : Store} (h : s.store be = some r) : ∃ bs, nodesBytes be s.kind s.nodes = some bs ∧ r = ⟨be, bs⟩ := by
  obtain ⟨bs, h1, rfl⟩ := Option.map_eq_some_iff.mp h
  exact ⟨bs, h1, rfl⟩

theorem store_node_at {be : Bool} {s : Sig} {t : Ty} {r : Store} (h : View s t) (hr : s.store be = some r) (i : Nat) :
    r.node_at i = some (s.nodes[i]?.map (s.kind, ·)) := by
  obtain ⟨bs, hb, rfl⟩ := store_eq hr
  obtain ⟨bs', hb', -, -, hf, hd⟩ := view_store be h
  cases hb.symm.trans hb'
  obtain ⟨n, l, hn, hid, -⟩ := view_flag h
  have hfl : s.flags = some n.flags := by unfold Sig.flags; rw [hn]; rfl
  unfold Store.node_at
  rw [hf, hfl]
  simp only [Option.bind_eq_bind, Option.bind_some]
  generalize hk : s.kind = k at *
  cases k with
  | node8 => rw [if_pos hid, hd]
  | node64 => rw [if_neg (by rw [hid]; decide), if_pos hid, hd]

theorem strictMul_ok (k : Kind) {a : Nat} (h : a ≤ k.lengthMax) : Store.strictMul a k.coeff = some (a * k.coeff) := by
  unfold Store.strictMul
  rw [if_pos]
  refine Nat.lt_of_le_of_lt (Nat.mul_le_mul_right _ h) ?_
  cases k <;> decide

theorem store_at {be : Bool} {s : Sig} {t : Ty} {r : Store} (h : View s t) (hr : s.store be = some r) (i : Nat) :
    (∀ s', s.at_ i = some (some s') → ∃ r', s'.store be = some r' ∧ r.at_ i = some (some r') ∧ r'.cells <:+: r.cells)
    ∧ (s.at_ i = some none → r.at_ i = some none) := by
  have hna := store_node_at h hr i
  obtain ⟨n, l, hn, hid, hmax⟩ := view_flag h
  obtain ⟨bs, hb, rfl⟩ := store_eq hr
  obtain ⟨bs', hb', -, hw, -, -⟩ := view_store be h
  cases hb.symm.trans hb'
  unfold Store.at_ Sig.at_
  rw [hna, h.rep.node_at]
  simp only [Option.bind_eq_bind, Option.bind_some]
  cases hi : s.nodes[i]? with
  | none => exact ⟨fun s' hs => (by cases hs), fun _ => rfl⟩
  | some m =>
    simp only [Option.map_some]
    have hlt : i < s.nodes.length := (List.getElem?_eq_some_iff.mp hi).1
    split
    · exact ⟨fun s' hs => (by cases hs), fun _ => rfl⟩
    · split
      · rename_i hle
        refine ⟨fun s' hs => ?_, fun hs => by cases hs⟩
        cases hs
        have hfm := view_fits h m (List.mem_of_getElem? hi)
        rw [strictMul_ok s.kind (show i ≤ _ by omega), strictMul_ok s.kind hfm.l]
        simp only [Option.bind_some]
        have hwi : i * s.kind.coeff ≤ (Store.mk be bs).words := by
          rw [hw, Sig.words, Nat.mul_comm]
          exact Nat.mul_le_mul_left _ (by omega)
        unfold Store.split_at
        rw [if_pos hwi]
        simp only [Option.bind_some]
        have hwl : m.length * s.kind.coeff ≤ (Store.mk be (bs.drop (8 * (i * s.kind.coeff)))).words := by
          have hw' := hw
          unfold Store.words Sig.words at hw'
          unfold Store.words
          have hle' := Nat.mul_le_mul_left s.kind.coeff hle
          rw [Nat.mul_add] at hle'
          rw [List.length_drop, Nat.mul_comm m.length, Nat.mul_comm i]
          simp only [] at hw' ⊢
          omega
        rw [if_pos hwl]
        refine ⟨_, ?_, rfl, ?_⟩
        · unfold Sig.store
          rw [nodes_part be (view_fits h) hb i m.length hle, Nat.mul_comm i, Nat.mul_comm m.length]
          rfl
        · exact List.IsInfix.trans (List.take_prefix ..).isInfix (List.drop_suffix ..).isInfix
      · exact ⟨fun s' hs => (by cases hs), fun hs => (by cases hs)⟩

end Verif.Dbus

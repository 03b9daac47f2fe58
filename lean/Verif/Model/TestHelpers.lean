import Verif.Model.ParserData
/-
Model of src/test_helpers.rs (a public module).  Sets are lists without repetition, see `Model/Basic`.
-/
namespace HPP

/-- The loop of `make_memberset` (test_helpers.rs 9-18). -/
def memberSetLoop : Str → List SetMemberE → List SetMemberE
  | [], set => set
  | x :: xs, set =>
    if x = '#' then memberSetLoop xs (setInsert set .empty)
    else if x = '!' then memberSetLoop xs (setInsert set .terminate)
    else memberSetLoop xs (setInsert set (.char x))

/-- `make_memberset` (test_helpers.rs 7-20). -/
def makeMemberSet (chrs : Str) : List SetMemberE := memberSetLoop chrs []

/-- The loop of `make_memberset_no_empty` (test_helpers.rs 24-30). -/
def memberSetNoEmptyLoop : Str → List SetMember → List SetMember
  | [], set => set
  | x :: xs, set =>
    if x = '!' then memberSetNoEmptyLoop xs (setInsert set .terminate)
    else memberSetNoEmptyLoop xs (setInsert set (.char x))

/-- `make_memberset_no_empty` (test_helpers.rs 22-32). -/
def makeMemberSetNoEmpty (chrs : Str) : List SetMember := memberSetNoEmptyLoop chrs []

end HPP

import Verif.Fetch.Model

/-!
# Fetching datasets: specification (C109)
-/

set_option autoImplicit false

namespace Verif.Fetch

open Verif.Text Verif.Datasets

variable {β γ δ : Type}

/-- The name of the file of a call. -/
def Call.file : Call → String
  | .data d => d.source.2
  | .any _ name => name
  | .log _ name => name

/-- Where the data of a call comes from: an address, or one of the logs. -/
def Call.origin : Call → String ⊕ Log
  | .data d => .inl d.source.1.url
  | .any base _ => .inl base.url
  | .log l _ => .inr l

/-- The address of the data. -/
def Call.url : Call → String
  | .data .chess => "http://fimi.uantwerpen.be/data/chess.dat"
  | .data .connect => "http://fimi.uantwerpen.be/data/connect.dat"
  | .data .mushroom => "http://fimi.uantwerpen.be/data/mushroom.dat"
  | .data .pumsb => "http://fimi.uantwerpen.be/data/pumsb.dat"
  | .data .pumsbStar => "http://fimi.uantwerpen.be/data/pumsb_star.dat"
  | .data .kosarak => "http://fimi.uantwerpen.be/data/kosarak.dat"
  | .data .retail => "http://fimi.uantwerpen.be/data/retail.dat"
  | .data .accidents => "http://fimi.uantwerpen.be/data/accidents.dat"
  | .data .iris => "https://cgi.csc.liv.ac.uk/~frans/KDD/Software/LUCS-KDD-DN/DataSets/iris.D19.N150.C3.num.gz"
  | .data .breast => "https://cgi.csc.liv.ac.uk/~frans/KDD/Software/LUCS-KDD-DN/DataSets/breast.D20.N699.C2.num"
  | .data .tictactoe => "https://cgi.csc.liv.ac.uk/~frans/KDD/Software/LUCS-KDD-DN/DataSets/ticTacToe.D29.N958.C2.num"
  | .any .fimi name => "http://fimi.uantwerpen.be/data/" ++ name
  | .any .cgi name => "https://cgi.csc.liv.ac.uk/~frans/KDD/Software/LUCS-KDD-DN/DataSets/" ++ name
  | .any (.other u) name => u ++ name
  | .log .health _ => "https://raw.githubusercontent.com/logpai/loghub/master/HealthApp/HealthApp_2k.log"
  | .log .tv _ => "https://zenodo.org/record/4671512/files/canadian_tv.txt"

/-- The folder of a call. -/
def folder (standard : String) : Option String → String
  | some d => if d = "" then standard else d
  | none => standard

/-- What the content of a file of transactions says: it is compressed if it comes from the second collection; the transactions are its lines (C32). -/
def transactions (lib : Lib β γ δ) (origin : String) (b : β) : Except Err (List (List ℤ)) :=
  match if origin = "https://cgi.csc.liv.ac.uk/~frans/KDD/Software/LUCS-KDD-DN/DataSets/" then lib.unzip b else lib.plain b with
  | none => .error .decode
  | some text => match readDat parseInt ' ' text with
    | none => .error .value
    | some rows => .ok rows

/-- What the content `b` of the server says: the transactions, or the log with its dates. -/
def meaning (lib : Lib β γ δ) (c : Call) (b : β) : Except Err (Answer δ) :=
  match c.origin with
  | .inl u => (transactions lib u b).map .rows
  | .inr l =>
    match (lib.parse l b).bind (lib.dates l) with
    | some s => .ok (.log s)
    | none => .error .value

/-- Two calls of the history that use the same file are for the same data. -/
def NoMixing (standard : String) (h : List (Call × Option String)) : Prop :=
  ∀ x ∈ h, ∀ y ∈ h, (folder standard x.2, x.1.file) = (folder standard y.2, y.1.file) → x.1.origin = y.1.origin

/-- The functions of the datasets and the logs under their own file names (the defaults of `/repo/skmine/datasets/periodic.py:53, 100`). -/
def Call.Named : Call → Prop
  | .data _ => True
  | .any _ _ => False
  | .log .health name => name = "health_app.csv"
  | .log .tv name => name = "canadian_tv.txt"

end Verif.Fetch

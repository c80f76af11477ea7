import Verif.Model.Text
import Verif.Model.Base64
import Verif.Model.Value
import Verif.Lemmas.Text
import Verif.Lemmas.Base64
import Verif.Model.Crypto
import Verif.Model.EncValue
import Verif.Spec.Syntax
import Verif.Lemmas.EncValue
import Verif.Lemmas.Value
import Verif.Spec.Toy
import Verif.Props.Values
import Verif.Model.Tree
import Verif.Model.Partial
import Verif.Model.MapCrypt
import Verif.Model.Timestamp
import Verif.Model.Dates
import Verif.Model.Mac
import Verif.Spec.Tree
import Verif.Lemmas.Tree
import Verif.Lemmas.Partial
import Verif.Lemmas.MapCrypt
import Verif.Lemmas.Mac
import Verif.Lemmas.Nonces
import Verif.Props.Maps
import Verif.Model.Keys
import Verif.Model.Integration
import Verif.Model.Format
import Verif.Model.Metadata
import Verif.Model.File
import Verif.Spec.Format
import Verif.Lemmas.Format
import Verif.Lemmas.Written
import Verif.Props.Formats
import Verif.Spec.Keys
import Verif.Lemmas.Keys
import Verif.Spec.ToyKeys
import Verif.Props.Keys
import Verif.Spec.File
import Verif.Lemmas.File
import Verif.Lemmas.FileOps
import Verif.Spec.ToyFile
import Verif.Props.Files
import Verif.Lemmas.Tamper
import Verif.Props.Tamper
import Verif.Spec.Content
import Verif.Lemmas.Content
import Verif.Props.KeyOps
import Verif.Spec.ContentFormats
import Verif.Lemmas.ContentFormats
import Verif.Props.SetMap
import Verif.Spec.History
import Verif.Lemmas.History
import Verif.Props.Histories
import Verif.Model.Document
import Verif.Spec.Document
import Verif.Spec.Dates
import Verif.Lemmas.Document
import Verif.Lemmas.DocFormats
import Verif.Lemmas.DocFiles
import Verif.Spec.ToyDoc
import Verif.Props.Documents
import Verif.Model.Config
import Verif.Model.Reading
import Verif.Model.Cli
import Verif.Spec.Cli
import Verif.Lemmas.Cli
import Verif.Lemmas.CliRuns
import Verif.Spec.ToyCli
import Verif.Props.Commands
import Verif.Lemmas.ToyCli
import Verif.Props.CommandTexts
import Verif.Spec.Encoding
import Verif.Lemmas.Encoding
import Verif.Spec.Leakage
import Verif.Lemmas.Leakage
import Verif.Props.Leakage
import Verif.Spec.CliHistory
import Verif.Lemmas.CliHistory
import Verif.Lemmas.ToyHistory
import Verif.Props.CliHistories
import Verif.Lemmas.Twice
import Verif.Props.Twice
import Verif.Props.Kms
import Verif.Props.Dates
import Verif.Props.Panics
import Verif.Props.Outsiders
import Verif.Model.Args
import Verif.Spec.CommandLine
import Verif.Lemmas.Args
import Verif.Lemmas.Decimals
import Verif.Lemmas.Dates
import Verif.Lemmas.ArgCrashes
import Verif.Props.CommandLine
import Verif.Spec.Records
import Verif.Lemmas.Records
import Verif.Props.Records
import Verif.Props.Messages
import Verif.Props.Reencryption
import Verif.Lemmas.Reading
import Verif.Lemmas.Crashes
import Verif.Lemmas.CrashRuns
import Verif.Props.Crashes
import Verif.Props.Edits
import Verif.Spec.Changes
import Verif.Lemmas.Changes
import Verif.Props.Changes
import Verif.Spec.Injected
import Verif.Props.Injected
import Verif.Spec.Colons
import Verif.Lemmas.Colons
import Verif.Props.Colons
import Verif.Spec.Success
import Verif.Lemmas.Success
import Verif.Lemmas.Again
import Verif.Props.Success
import Verif.Spec.ReadErrors
import Verif.Props.ReadErrors
import Verif.Spec.Halts
import Verif.Lemmas.Halts
import Verif.Props.Halts
import Verif.Props.Building
import Verif.Props.Conversions
import Verif.Spec.Complaints
import Verif.Lemmas.Complaints
import Verif.Lemmas.Items
import Verif.Props.Complaints
import Verif.Model.JsonText
import Verif.Spec.JsonText
import Verif.Spec.JsonFiles
import Verif.Lemmas.JsonText
import Verif.Lemmas.JsonKeys
import Verif.Props.JsonText
import Verif.Lemmas.JsonFiles
import Verif.Props.JsonFiles
import Verif.Model.Floats
import Verif.Spec.Floats
import Verif.Lemmas.Floats
import Verif.Props.Floats
import Verif.Spec.Reread
import Verif.Lemmas.Reread
import Verif.Props.Reread
import Verif.Props.Gcm
import Verif.Props.Instants
import Verif.Lemmas.Field128
import Verif.Lemmas.Hashing
import Verif.Props.Forgery
import Verif.Lemmas.Shortest
import Verif.Lemmas.Truncated
import Verif.Lemmas.SerdeError
import Verif.Props.Decimals
import Verif.Spec.Showing
import Verif.Props.Showing
import Verif.Props.Access
import Verif.Spec.Aes
import Verif.Lemmas.Aes
import Verif.Spec.Sha
import Verif.Lemmas.Sha
import Verif.Spec.Ghash
import Verif.Lemmas.Ghash
import Verif.Props.Standards
import Verif.Props.Conformance
import Verif.Model.TomlText
import Verif.Spec.TomlFiles
import Verif.Spec.TomlText
import Verif.Lemmas.TomlFiles
import Verif.Lemmas.TomlText
import Verif.Lemmas.TomlValues
import Verif.Lemmas.TomlBuild
import Verif.Lemmas.TomlLines
import Verif.Lemmas.TomlSections
import Verif.Lemmas.TomlRound
import Verif.Lemmas.TomlFloats
import Verif.Lemmas.TomlRead
import Verif.Lemmas.TomlOrder
import Verif.Props.TomlFiles
import Verif.Props.TomlText
import Verif.Spec.TomlGrammar
import Verif.Lemmas.TomlStrings
import Verif.Lemmas.TomlNumbers
import Verif.Lemmas.TomlLexemes
import Verif.Lemmas.TomlSyntax
import Verif.Lemmas.TomlFine
import Verif.Props.TomlGrammar
import Verif.Spec.TomlMeaning
import Verif.Lemmas.TomlMeaning
import Verif.Lemmas.TomlFit
import Verif.Props.TomlSaid
import Verif.Model.TomlDates
import Verif.Spec.TomlDates
import Verif.Lemmas.TomlDates
import Verif.Props.TomlDates
import Verif.Model.YamlScalars
import Verif.Spec.YamlScalars
import Verif.Lemmas.YamlScalars
import Verif.Props.YamlScalars
import Verif.Spec.YamlFiles
import Verif.Lemmas.YamlFiles
import Verif.Props.YamlFiles
import Verif.Model.YamlLayout
import Verif.Spec.YamlLayout
import Verif.Lemmas.YamlForms
import Verif.Lemmas.YamlBlocks
import Verif.Lemmas.YamlLayout
import Verif.Props.YamlLayout
import Verif.Spec.Whole
import Verif.Lemmas.Whole
import Verif.Props.Whole
import Verif.Model.Shlex
import Verif.Spec.Shlex
import Verif.Lemmas.Shlex
import Verif.Props.Shlex
import Verif.Spec.YamlGrammar
import Verif.Lemmas.YamlLines
import Verif.Lemmas.YamlWords
import Verif.Lemmas.YamlGrammar
import Verif.Props.YamlGrammar
import Verif.Props.Verbatim
import Verif.Props.YamlShown
import Verif.Props.Lines
import Verif.Props.Written
import Verif.Props.TomlWritten
import Verif.Props.Terminal
import Verif.Props.TerminalMessages

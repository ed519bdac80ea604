import Verif.Props.Html

/-! The unit tests of the repository replayed on the model. These are tests of the model, not proofs: no property rests on
them. Each is preceded by the place of the source literal in /repo/src. -/

namespace Verif.Html

-- html.rs:162
#guard minify ascii "<head>\n    <title>Some huge title</title>\n    <link rel=\"stylesheet\" type=\"text/css\"   href=\"something.css\"   >\n    <style type=\"text/css\">\n        .some_class {\n            color: red;\n        }\n    </style>\n</head>\n<body>\n    <header>\n        <div>\n            <i>    <b><a href=\"www.somewhere.com\" class=\"some_class\">Narnia</a> </b>    </i>\n            <h1    style=\"width:100%;text-align:center;\"   >Big header</h1>\n        </div>\n    <!-- commeeeeeeeents !!! -->\n    </header>\n    <div id=\"some_id\">\n        <!-- another comment\n        on\nmulti\nlines -->\n        <div id=\"another_id\" class=\"another_class\" width=\"100\">\n            <h2>A little sub title</h2>\n            <ul>\n                <li>A list!</li>\n                <li>Who doesn't like lists?</li>\n                <li height=\"12\" class=\"fooool\">Well, who cares...</li>\n            </ul>\n        </div>\n    </div>\n    <script type=\"text/javascript\"    >\n        console.log(\"foo\");\n    </script>\n    <style type=\"text/css\" src=\"../foo.css\">\n    <script src=\"../foo.js\">\n</body>\n".toList = some "<title>Some huge title</title> <link rel=\"stylesheet\" type=\"text/css\" href=\"something.css\"> <style> .some_class { color: red; } </style> <header> <div> <i> <b><a href=\"www.somewhere.com\" class=\"some_class\">Narnia</a> </b> </i> <h1 style=\"width:100%;text-align:center;\">Big header</h1> </div> </header> <div id=\"some_id\"> <div id=\"another_id\" class=\"another_class\" width=100> <h2>A little sub title</h2> <ul> <li>A list! <li>Who doesn't like lists? <li height=12 class=\"fooool\">Well, who cares... </ul> </div> </div> <script > console.log(\"foo\"); </script> <style src=\"../foo.css\"> <script src=\"../foo.js\">".toList

-- html.rs:217
#guard minify ascii "\n<div>\n    <!-- normal comment -->\n    <div>content</div>\n    <!--[if lte IE 8]>\n    <div class=\"warning\">This old browser is unsupported and will most likely display funky things.\n    </div>\n    <![endif]-->\n</div>\n".toList = some "<div> <div>content</div> <!--[if lte IE 8]> <div class=\"warning\">This old browser is unsupported and will most likely display funky things. </div> <![endif]--> </div>".toList


end Verif.Html
